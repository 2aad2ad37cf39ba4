import Verif.Model.Util
/-! The unit tests of `/repo/src/misc/util.rs:9-29`, run on the model. -/
namespace Verif.Tests
open Res Model

/-- `ceil_pow2` (`/repo/src/misc/util.rs:11-28`). -/
example : ceilLg 0 = ok 0 ∧ ceilLg 1 = ok 0 ∧ ceilLg 2 = ok 1 ∧ ceilLg 3 = ok 2 ∧ ceilLg 4 = ok 2 ∧
    ceilLg 5 = ok 3 ∧ ceilLg 6 = ok 3 ∧ ceilLg 7 = ok 3 ∧ ceilLg 8 = ok 3 ∧ ceilLg 9 = ok 4 ∧
    ceilLg (1 <<< 30) = ok 30 ∧ ceilLg ((1 <<< 30) + 1) = ok 31 ∧ ceilLg (2 ^ 32 - 1) = ok 32 := by
  decide +kernel

/-- `lg` has no test in the repository. -/
example : lg 0 = panic ∧ lg 1 = ok 0 ∧ lg 2 = ok 1 ∧ lg 3 = ok 1 ∧ lg 4 = ok 2 ∧
    lg (2 ^ 63) = ok 63 ∧ lg (2 ^ 63 - 1) = ok 62 ∧ lg (2 ^ 64 - 1) = ok 63 := by
  decide +kernel

end Verif.Tests
