import Verif.Model.Config
import Verif.Spec.Digits

/-!
# Configuration files, written line by line

A file is some lines of comment, then sections.  A section is a header, some lines of comment and options; an option is its line and the lines
that belong to it.  Nothing here refers to how `configparser` reads a file.
-/

namespace OsUrl.Spec

open OsUrl

/-- A line of blanks. -/
def BlankLine (l : Str) : Prop := ∀ c ∈ l, isSpaceC c = true

/-- A comment, possibly indented. -/
def CommentLine (l : Str) : Prop := ∃ ws t, l = ws ++ t ∧ (∀ c ∈ ws, isSpaceC c = true) ∧ (t.head? = some '#' ∨ t.head? = some ';')

/-- An indented line with some text that is not a comment. -/
def IndentedLine (l : Str) : Prop :=
  (∃ c, l.head? = some c ∧ isSpaceC c = true) ∧ ¬ BlankLine l ∧ ¬ CommentLine l

/-- An option: `name = text`, or with a colon, and the lines that follow: blank, comments or indented. -/
structure CfgOpt where
  name : Str
  delim : Char
  text : Str
  more : List Str

/-- The option as it should be written. -/
structure CfgOpt.OK (o : CfgOpt) : Prop where
  delim : o.delim = '=' ∨ o.delim = ':'
  name : '=' ∉ o.name ∧ ':' ∉ o.name
  first : ∃ c, o.name.head? = some c ∧ isSpaceC c = false ∧ c ≠ '[' ∧ c ≠ '#' ∧ c ≠ ';'
  more : ∀ l ∈ o.more, BlankLine l ∨ CommentLine l ∨ IndentedLine l

/-- Its lines. -/
def CfgOpt.lines (o : CfgOpt) : List Str := (o.name ++ o.delim :: o.text) :: o.more

/-- Its value: the text without blanks around it; every indented line is a further line of the value, and so is a blank line, except at the end. -/
noncomputable def CfgOpt.value (o : CfgOpt) : Str :=
  open Classical in
  rstripS (join ['\n'] (stripS o.text :: (o.more.filter (fun l => decide (¬ CommentLine l))).map stripS))

/-- A section: `[name]` and anything without `]`, blank lines and comments, options. -/
structure CfgSec where
  name : Str
  rest : Str
  junk : List Str
  opts : List CfgOpt

/-- The section as it should be written. -/
structure CfgSec.OK (s : CfgSec) : Prop where
  name : s.name ≠ []
  rest : ']' ∉ s.rest
  junk : ∀ l ∈ s.junk, BlankLine l ∨ CommentLine l
  opts : ∀ o ∈ s.opts, o.OK

/-- Its lines. -/
def CfgSec.lines (s : CfgSec) : List Str := ('[' :: s.name ++ ']' :: s.rest) :: s.junk ++ s.opts.flatMap CfgOpt.lines

/-- A file. -/
structure CfgFile where
  junk : List Str
  secs : List CfgSec

/-- The file as it should be written. -/
structure CfgFile.OK (f : CfgFile) : Prop where
  junk : ∀ l ∈ f.junk, BlankLine l ∨ CommentLine l
  secs : ∀ s ∈ f.secs, s.OK

/-- Its lines. -/
def CfgFile.lines (f : CfgFile) : List Str := f.junk ++ f.secs.flatMap CfgSec.lines

/-- Everything the file sets: section, option (in lower case, without blanks after it), value. -/
noncomputable def CfgFile.entries (lower : Str → Str) (f : CfgFile) : List ((Str × Str) × Str) :=
  f.secs.flatMap (fun s => s.opts.map (fun o => ((s.name, lower (rstripS o.name)), o.value)))

/-- No section but `DEFAULT` is written twice, no option of a section is set twice. -/
structure CfgFile.Distinct (lower : Str → Str) (f : CfgFile) : Prop where
  secs : ((f.secs.map CfgSec.name).filter (fun n => decide (n ≠ c!"DEFAULT"))).Nodup
  opts : ((f.entries lower).map Prod.fst).Nodup

/-- The blanks of Unicode 14. -/
def blankCodes : List Nat :=
  [0x9, 0xA, 0xB, 0xC, 0xD, 0x1C, 0x1D, 0x1E, 0x1F, 0x20, 0x85, 0xA0, 0x1680, 0x2000, 0x2001, 0x2002, 0x2003, 0x2004, 0x2005, 0x2006, 0x2007,
   0x2008, 0x2009, 0x200A, 0x2028, 0x2029, 0x202F, 0x205F, 0x3000]

/-- `t` is `s` without the blanks at both ends. -/
def StrippedText (s t : Str) : Prop :=
  ∃ a b, s = a ++ t ++ b ∧ (∀ c ∈ a ++ b, c.toNat ∈ blankCodes) ∧ (∀ c, t.head? = some c ∨ t.getLast? = some c → c.toNat ∉ blankCodes)

/-- A whole number as `int` reads it: blanks (but not U+001C … U+001F) around a sign, or none, and digits of any script with single
underscores between them. -/
def IntText (v : Str) (k : Int) : Prop :=
  ∃ (w1 sign w2 : Str) (gs : List (List (Char × Nat))),
    v = w1 ++ sign ++ join ['_'] (gs.map (fun g => g.map (·.1))) ++ w2 ∧
    (∀ c ∈ w1 ++ w2, c.toNat ∈ blankCodes ∧ c.toNat ∉ [0x1C, 0x1D, 0x1E, 0x1F]) ∧
    gs ≠ [] ∧ (∀ g ∈ gs, g ≠ [] ∧ ∀ p ∈ g, IsDecimal p.1 p.2) ∧
    ((sign = [] ∨ sign = ['+']) ∧ k = (gs.flatten.foldl (fun n p => n * 10 + p.2) 0 : Nat) ∨
      sign = ['-'] ∧ k = -((gs.flatten.foldl (fun n p => n * 10 + p.2) 0 : Nat) : Int))

/-- `%%` stands for a percent sign and `%(name)s` for the value of the option, in which the same is done, at most `d` deep. -/
inductive Expand (lower : Str → Str) (look : Str → Option Str) : Nat → Str → Str → Prop
  | nil (d : Nat) : Expand lower look d [] []
  | char (d : Nat) (c : Char) (s r : Str) : c ≠ '%' → Expand lower look d s r → Expand lower look d (c :: s) (c :: r)
  | percent (d : Nat) (s r : Str) : Expand lower look d s r → Expand lower look d ('%' :: '%' :: s) ('%' :: r)
  | plain (d : Nat) (name v s r : Str) : name ≠ [] → ')' ∉ name → look (lower name) = some v → '%' ∉ v → Expand lower look d s r →
      Expand lower look d ('%' :: '(' :: name ++ ')' :: 's' :: s) (v ++ r)
  | deep (d : Nat) (name v w s r : Str) : name ≠ [] → ')' ∉ name → look (lower name) = some v → '%' ∈ v → Expand lower look d v w →
      Expand lower look (d + 1) s r → Expand lower look (d + 1) ('%' :: '(' :: name ++ ')' :: 's' :: s) (w ++ r)

/-- What is used of `str.lower`: it does not make a text empty, and it does the usual on ASCII. -/
structure IsLower (lower : Str → Str) : Prop where
  ne : ∀ s, lower s = [] → s = []
  ascii : ∀ s : Str, (∀ c ∈ s, c.toNat < 128) → lower s = s.map Char.toLower

end OsUrl.Spec
