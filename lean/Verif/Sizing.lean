import Verif.Res
/-!
# Thresholds (`include/dktree/utils.hpp`)

The code consults two numeric functions, both written with `double` arithmetic:

* `MAXSZ(m, i) = floor((m << 1) / pow(log2(m), 2 - i*EPS))`, `EPS = 0.25`   (utils.hpp:6,8)
* the rebuild test `n_total_marked > n_total_edges / TAU(n_total_edges)`, `TAU(m) = log2(log2(m))`
  (utils.hpp:7, DKtree.hpp:207).

The model takes them as a parameter `S : Sizing`; `RealSizing.lean` gives the instance `realSizing`
that reads the formulas over the real numbers.
-/

namespace DK2

/-- `RS` (utils.hpp:9): number of levels in `k_collection`. -/
def RS : Nat := 8

/-- The two threshold functions the code consults. -/
structure Sizing where
  /-- `MAXSZ(m, i)` converted to an integer (utils.hpp:8). -/
  maxsz : Nat → Nat → Nat
  /-- `rebuild marked n` is the test `marked > n / TAU(n)` (DKtree.hpp:207). -/
  rebuild : Nat → Nat → Bool

end DK2
