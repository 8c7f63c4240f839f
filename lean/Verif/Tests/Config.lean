import Verif.Props.C68

/-! # tests/test_config.py, checked against the model -/

namespace OsUrl.Tests

/-- tests/test_config.py:6-8 -/
example : (getDefaultConfig asciiLower).bind (minClusterNum asciiLower) = .ok 3 := by decide +kernel

end OsUrl.Tests
