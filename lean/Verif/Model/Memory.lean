import Verif.Model.Py

/-!
# The size of memory in log lines

utils.py:219-275.  Simplification: the arithmetic of `format_byte` is exact here, while Python computes with doubles.
`value / 1024.0 ** suffix` is exact as long as `value < 2^53`, and the product with the factor 100 as long as `value < 2^46`.
The quotient of the logarithms rounds to the next integer only just below powers of 1024 from the fifth on.
The text of a double near `k / 100` is that of the decimal fraction.
-/

namespace OsUrl

/-- `_UNIT_SUFFIXES`, utils.py:238 -/
def unitSuffixes : List Str := [c!"", c!"K", c!"M", c!"G", c!"T", c!"P", c!"E", c!"Z", c!"Y"]

/-- `int(math.log(value) / _LOG_1024)` for a positive value, utils.py:255; `fuel` bounds the result. -/
def log1024 : Nat → Nat → Nat
  | 0, _ => 0
  | fuel + 1, v => if v < 1024 then 0 else log1024 fuel (v / 1024) + 1

/-- The last `p` decimal digits of `n`. -/
def padDigits : Nat → Nat → Str
  | 0, _ => []
  | p + 1, n => padDigits p (n / 10) ++ [digitChar (n % 10)]

/-- `str` of the float `k / 10 ** p` (below 1e16): at least one digit after the point, and no zeros at the end. -/
def floatStr (k p : Nat) : Str :=
  let f := ((padDigits p k).reverse.dropWhile (· == '0')).reverse
  natStr (k / 10 ^ p) ++ '.' :: (if f.isEmpty then ['0'] else f)

/-- `format_byte(value, precision)`, utils.py:243-257.  `math.log` raises `ValueError` unless the value is positive; the suffix is looked up last. -/
def formatByte (value : Int) (precision : Nat) : Py Str :=
  if value ≤ 0 then .error .valueError
  else
    let v := value.toNat
    let factor := 10 ^ precision
    let suffix := min (log1024 v v) unitSuffixes.length
    let num := (v * factor + (1024 ^ suffix - 1)) / 1024 ^ suffix
    match unitSuffixes[suffix]? with
    | none => .error .indexError
    | some u => .ok (floatStr num precision ++ u)

/-- `b in s` -/
def hasSub (b : Str) : Str → Bool
  | [] => b.isEmpty
  | c :: s => startsWith b (c :: s) || hasSub b s

/-- `MemoryUsageFormatter.__init__`, utils.py:263-267: the flag `_log_memory`. -/
def logMemory (fmt : Option Str) : Bool :=
  match fmt with
  | none => true
  | some f => f.isEmpty || hasSub c!"%(memory)s" f

/-- The dictionary of the log record after `MemoryUsageFormatter.format`, utils.py:269-272; `used` is what `used_memory()` returns. -/
def memoryRecord (fmt : Option Str) (used : Str) (record : Dict Str Str) : Dict Str Str :=
  if logMemory fmt && (Dict.get? c!"memory" record).isNone then Dict.upd c!"memory" (fun _ => used) record else record

end OsUrl
