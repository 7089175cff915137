import Verif.FLS.Exp1Check

/-!
# The check of the formula for the exponential integral between `2 ^ -10` and `2 ^ 10`

The mesh is the certificate of the checker: numbers of cells and widths.
-/

namespace Verif.FLS.Exp1Check

def mesh1 : List (ℕ × ℕ) :=
  [(7, 262144), (5, 131072), (12, 65536), (23, 32768), (43, 16384), (69, 8192), (205, 4096), (128, 2048), (240, 1024), (99, 2048), (161, 1024),
   (570, 512), (170, 1024), (24, 2048), (175, 1024), (767, 512), (141, 1024), (486, 2048), (76, 4096), (47, 8192), (51, 16384), (20, 32768),
   (9, 65536), (5, 131072), (8, 262144)]

theorem check1 : check 2882303761517117 15982885812038603876 mesh1 = true := by decide +kernel

end Verif.FLS.Exp1Check
