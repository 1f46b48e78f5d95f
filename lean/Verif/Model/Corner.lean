import Verif.Model.Scripts

/-!
# The scripts that draw corner plots

models/regression/corner_plt.py, models/multi_gaussian/corner_plt.py, models/curved_likelihood/corner_plt.py and models/hier_R/corner_plt.py read the columns of the
parameters of one chain file and hand them to the library `corner`, which is not modelled. Python's `float(s)` is a parameter `flt` (`none`: no number).
-/

namespace NiiC
namespace Scripts

/-- What is set at the top of such a script: the file that is opened, the number of columns that are read (from the first on), the number of lines skipped. -/
structure Plot where
  file : Str
  cols : Nat
  skip : Nat

/-- models/regression/corner_plt.py:12-20 -/
def regressionPlot : Plot := ⟨c!"./results082900/chain3.dat", 3, 100000⟩

/-- models/multi_gaussian/corner_plt.py:12-20 -/
def gaussianPlot : Plot := ⟨c!"./results082900/chain4.dat", 2, 0⟩

/-- models/curved_likelihood/corner_plt.py:11-19 -/
def curvedPlot : Plot := ⟨c!"./chains/chain_1.0.txt", 2, 0⟩

/-- models/hier_R/corner_plt.py:12-21 -/
def hierPlot : Plot := ⟨c!"./results082900_debug/chain3.dat", 6, 1000000⟩

/-- The array given to `corner` for a file with the content `text`: regression/corner_plt.py:20-28 and the same lines of the others. `np.genfromtxt` skips the first
lines and takes the first columns of the others; a line with fewer columns is an error. A cell that is no number becomes NaN there; here the reading fails. Of a single
line a vector is made, whose `shape[1]` does not exist; of no line an empty vector with the same effect. -/
def Plot.shown {R : Rounding} (p : Plot) (flt : Str → Option (Dbl R)) (text : Str) : Option (List (List (Dbl R))) := do
  let rows ← ((getlines text).drop p.skip).mapM fun l => cells flt p.cols (split l)
  if rows.length ≤ 1 then none else pure rows

end Scripts
end NiiC
