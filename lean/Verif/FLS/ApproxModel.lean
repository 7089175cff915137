import Verif.FLS.InclProps
import Mathlib.NumberTheory.Harmonic.EulerMascheroni
import Mathlib.Analysis.SpecialFunctions.Pow.Real

/-!
# Model of the approximations of the finite line source solution

Models `pygfunction/utilities.py`: `exp1` (l. 43-73), the tables of coefficients `_a_Q`, `_b_Q` (l. 427-477), `_a_erf`, `_b_erf` (l. 479-480) and
`_erf_coeffs` (l. 483-514); `pygfunction/heat_transfer.py`: `finite_line_source_approximation` (l. 349-455),
`finite_line_source_inclined_approximation` (l. 458-650); `pygfunction/solvers/_base_solver.py`: the check of `nFLS` (l. 620-622).

Simplifications: exact arithmetic; one pair of boreholes and one time (the code evaluates arrays of pairs and times element by element); the nodes and halved
weights of the Gauss-Legendre rule are an arbitrary list.  `exp1` and the coefficients are parameters of the formulas; the code's own are used in `approx` and
`Incl.approx`.
-/

noncomputable section

namespace Verif.FLS

open Real

/-- `utilities.exp1` (l. 66-73). -/
def exp1 (x : ℝ) : ℝ :=
  let q := 20 / 47 * x ^ √(31 / 26)
  let G := exp (-eulerMascheroniConstant)
  let b := √(2 * (1 - G) / (G * (2 - G)))
  let hInf := (1 - G) * (G ^ 2 - 6 * G + 12) / (3 * G * (2 - G) ^ 2 * b)
  let h := 1 / (1 + x * √x) + hInf * q / (1 + q)
  exp (-x) * log (1 + G / x - (1 - G) / (h + b * x) ^ 2) / (G + (1 - G) * exp (-x / (1 - G)))

/-- `_a_Q` (l. 427-451). -/
def aQ : List (List ℚ) :=
  [
   [0.5],
   [0.38896664, 0.11103336],
   [0.33527962, 0.12810593, 0.03661445],
   [0.30030983, 0.13487919, 0.05013556, 0.01467542],
   [0.27479399, 0.13748584, 0.05862135, 0.02248433, 0.00661449],
   [0.25503407, 0.13802966, 0.0643485, 0.02837111, 0.0109824, 0.00323426],
   [0.23911489, 0.13748632, 0.06838034, 0.03292679, 0.01470502, 0.00570587, 0.00168077],
   [0.22591697, 0.13634258, 0.07131091, 0.03652669, 0.01786631, 0.00801018, 0.00311014, 0.00091621],
   [0.21473387, 0.13486132, 0.07348597, 0.03943108, 0.02055793, 0.01011012, 0.00453815, 0.00176237, 0.00051918],
   [0.20509396, 0.1331934, 0.07511994, 0.04181489, 0.02286797, 0.01200445, 0.00591433, 0.00265578, 0.00103142, 0.00030385],
   [1.96668237e-1, 1.31429201e-1, 7.63533671e-2, 4.37988006e-2, 2.48670891e-2, 1.37105484e-2, 7.21518244e-3, 3.55697135e-3, 1.59742839e-3,
    6.20405304e-4, 1.82769115e-4],
   [1.89218959e-1, 1.29624502e-1, 7.72824770e-2, 4.54686466e-2, 2.66106820e-2, 1.52489276e-2, 8.43419941e-3, 4.44252880e-3, 2.19058207e-3,
    9.83829957e-4, 3.82100123e-4, 1.12565366e-4],
   [1.82569305e-1, 1.27814364e-1, 7.79755534e-2, 4.68871585e-2, 2.81422454e-2, 1.66393673e-2, 9.57165126e-3, 5.30057319e-3, 2.79291283e-3,
    1.37728068e-3, 6.18571899e-4, 2.40241728e-4, 7.07743946e-5],
   [1.76584557e-1, 1.26021005e-1, 7.84824737e-2, 4.81012603e-2, 2.94961900e-2, 1.78997594e-2, 1.06309534e-2, 6.12490957e-3, 3.39347815e-3,
    1.78828708e-3, 8.81893551e-4, 3.96083441e-4, 1.53831535e-4, 4.53182508e-5],
   [1.71159961e-1, 1.24258455e-1, 7.88405624e-2, 4.91467816e-2, 3.06999814e-2, 1.90458340e-2, 1.16169465e-2, 6.91265586e-3, 3.98520556e-3,
    2.20841598e-3, 1.16384796e-3, 5.73958822e-4, 2.57781871e-4, 1.00117785e-4, 2.94943626e-5],
   [1.66212632e-1, 1.22535416e-1, 7.90783215e-2, 5.00515783e-2, 3.17757508e-2, 2.00912371e-2, 1.25349870e-2, 7.66294319e-3, 4.56353949e-3,
    2.63162740e-3, 1.45844437e-3, 7.68625638e-4, 3.79054499e-4, 1.70244761e-4, 6.61199763e-5, 1.94787228e-5],
   [1.61675984e-1, 1.20857065e-1, 7.92178935e-2, 5.08376544e-2, 3.27415005e-2, 2.10477375e-2, 1.33904628e-2, 8.37612314e-3, 5.12563255e-3,
    3.05356264e-3, 1.76108222e-3, 9.76023394e-4, 5.14386238e-4, 2.53674676e-4, 1.13932968e-4, 4.42495009e-5, 1.30357543e-5],
   [1.57495813e-1, 1.19226223e-1, 7.92767352e-2, 5.15226387e-2, 3.36120087e-2, 2.19254680e-2, 1.41885448e-2, 9.05327242e-3, 5.66980754e-3,
    3.47109109e-3, 2.06820289e-3, 1.19285611e-3, 6.61112401e-4, 3.48422527e-4, 1.71828197e-4, 7.71732546e-5, 2.99726950e-5, 8.82985530e-6],
   [1.53627474e-1, 1.17644127e-1, 7.92687848e-2, 5.21208339e-2, 3.43995123e-2, 2.27331580e-2, 1.49340669e-2, 9.69588035e-3, 6.19519161e-3,
    3.88198666e-3, 2.37705668e-3, 1.41643711e-3, 8.16962629e-4, 4.52785417e-4, 2.38629519e-4, 1.17682685e-4, 5.28548678e-5, 2.05278741e-5,
    6.04744278e-6],
   [1.50033809e-1, 1.16110948e-1, 7.92052948e-2, 5.26439756e-2, 3.51142271e-2, 2.34783431e-2, 1.56314796e-2, 1.03056504e-2, 6.70146463e-3,
    4.28469271e-3, 2.68552435e-3, 1.64458087e-3, 9.80002388e-4, 5.65244865e-4, 3.13276809e-4, 1.65105050e-4, 8.14233279e-5, 3.65696909e-5,
    1.42030062e-5, 4.18415798e-6],
   [1.46683603e-1, 1.14626141e-1, 7.90954371e-2, 5.31017916e-2, 3.57647474e-2, 2.41675463e-2, 1.62848424e-2, 1.08843745e-2, 7.18868427e-3,
    4.67814996e-3, 2.99197923e-3, 1.87551307e-3, 1.14859099e-3, 6.84453518e-4, 3.94780424e-4, 2.18800279e-4, 1.15313498e-4, 5.68680943e-5,
    2.55411908e-5, 9.91973698e-6, 2.92232130e-6],
   [1.43550410e-1, 1.13188689e-1, 7.89467519e-2, 5.35024187e-2, 3.63583546e-2, 2.48064324e-2, 1.68978380e-2, 1.14338539e-2, 7.65716384e-3,
    5.06166959e-3, 3.29518022e-3, 2.10779583e-3, 1.32134163e-3, 8.09225621e-4, 4.82226839e-4, 2.78140410e-4, 1.54154672e-4, 8.12436032e-5,
    4.00662071e-5, 1.79950304e-5, 6.98908441e-6, 2.05922993e-6],
   [1.40611651e-1, 1.11797270e-1, 7.87654842e-2, 5.38527210e-2, 3.69012618e-2, 2.53999394e-2, 1.74737973e-2, 1.19558501e-2, 8.10738541e-3,
    5.43483905e-3, 3.59418932e-3, 2.34026692e-3, 1.49708548e-3, 9.38524175e-4, 5.74783762e-4, 3.42521474e-4, 1.97560912e-4, 1.09494904e-4,
    5.77068046e-5, 2.84589040e-5, 1.27820425e-5, 4.96480326e-6, 1.46355998e-6],
   [1.37847922e-1, 1.10450380e-1, 7.85568414e-2, 5.41585303e-2, 3.73987982e-2, 2.59523825e-2, 1.80157254e-2, 1.24520552e-2, 8.53994009e-3,
    5.79745153e-3, 3.88830651e-3, 2.57198922e-3, 1.67483888e-3, 1.07144549e-3, 6.71699504e-4, 4.11373469e-4, 2.45143495e-4, 1.41394927e-4,
    7.83658119e-5, 4.13008575e-5, 2.03679647e-5, 9.14787205e-6, 3.55286785e-6, 1.04666292e-6],
   [1.35242468e-1, 1.09146424e-1, 7.83251937e-2, 5.44248334e-2, 3.78555618e-2, 2.64675469e-2, 1.85263310e-2, 1.29240698e-2, 8.95547615e-3,
    6.14944718e-3, 4.17701546e-3, 2.80220699e-3, 1.85377306e-3, 1.20720279e-3, 7.72298434e-4, 4.84164314e-4, 2.96520688e-4, 1.76701163e-4,
    1.01918520e-4, 5.64866191e-5, 2.97698937e-5, 1.46813183e-5, 6.59377671e-6, 2.56091315e-6, 7.54429001e-7]
  ]

/-- `_b_Q` (l. 453-477). -/
def bQ : List (List ℚ) :=
  [
   [1.4751134849381495],
   [0.86508615, 26.74445877],
   [0.72369789, 6.56251898, 241.88951974],
   [6.61598113e-1, 3.58507653, 4.06543950e1, 1.50259915e3],
   [6.26675417e-1, 2.51523207, 1.74704549e1, 2.00130058e2, 7.39412740e3],
   [6.04267679e-1, 1.98270748, 1.03318189e1, 7.30667703e1, 8.37106164e2, 3.09244471e4],
   [5.88652923e-1, 1.66838620, 7.14997233, 3.82243005e1, 2.70591171e2, 3.09970819e3, 1.14505983e5],
   [5.77138909e-1, 1.46235483, 5.42341290, 2.40129665e1, 1.28650391e2, 9.10672296e2, 1.04315510e4, 3.85347387e5],
   [5.68292223e-1, 1.31739756, 4.36474383, 1.68305504e1, 7.47796509e1, 4.00670467e2, 2.83606494e3, 3.24860046e4, 1.20004827e6],
   [5.61279078e-1, 1.21008463, 3.65938357, 1.26773324e1, 4.91263804e1, 2.18338000e2, 1.16981070e3, 8.28009812e3, 9.48447839e4, 3.50360802e6],
   [5.55581123e-1, 1.12753963, 3.16038928, 1.00435965e1, 3.50205685e1, 1.35786493e2, 6.03483129e2, 3.23326442e3, 2.28853649e4, 2.62141075e5,
    9.68360394e6],
   [5.50858966e-1, 1.06212559, 2.79106923, 8.25766830, 2.64546133e1, 9.23255146e1, 3.57987810e2, 1.59098809e3, 8.52390794e3, 6.03328955e4,
    6.91084483e5, 2.55289553e7],
   [5.46880974e-1, 1.00903726, 2.50793237, 6.98358314, 2.08614297e1, 6.69165938e1, 2.33557562e2, 9.05592305e2, 4.02463435e3, 2.15623730e4,
    1.52620025e5, 1.74818906e6, 6.45788464e7],
   [5.43483589e-1, 9.65105077e-1, 2.28467213, 6.03785278, 1.70020329e1, 5.08730855e1, 1.63211843e2, 5.69650299e2, 2.20872597e3, 9.81597342e3,
    5.25899577e4, 3.72235348e5, 4.26377669e6, 1.57505720e8],
   [5.40547997e-1, 9.28156233e-1, 2.10453418, 5.31316070, 1.42210313e1, 4.01291491e1, 1.20105287e2, 3.85326438e2, 1.34487038e3, 5.21448432e3,
    2.31740523e4, 1.24156985e5, 8.78791556e5, 1.00661338e7, 3.71847252e8],
   [5.37985789e-1, 8.96652683e-1, 1.95638816, 4.74319987, 1.21460117e1, 3.25928353e1, 9.20054866e1, 2.75377156e2, 8.83467203e2, 3.08346629e3,
    1.19555341e4, 5.31323727e4, 2.84661195e5, 2.01485110e6, 2.30791482e7, 8.52553520e8],
   [5.35729805e-1, 8.69475812e-1, 1.83257556, 4.28511737, 1.05528354e1, 2.71050303e1, 7.27704479e1, 2.05432895e2, 6.14867611e2, 1.97260977e3,
    6.88475630e3, 2.66942568e4, 1.18633650e5, 6.35589774e5, 4.49874709e6, 5.15309790e7, 1.90357621e9],
   [5.33728106e-1, 8.45792970e-1, 1.72766783, 3.91015978, 9.30008641, 2.29840397e1, 5.90722445e1, 1.58608247e2, 4.47755113e2, 1.34013739e3,
    4.29939475e3, 1.50056243e4, 5.81812571e4, 2.58566993e5, 1.38529437e6, 9.80520645e6, 1.12313912e8, 4.14892355e9],
   [5.31939889e-1, 8.24971801e-1, 1.63771800, 3.59841172, 8.29495341, 1.98088089e1, 4.89935581e1, 1.25935868e2, 3.38138670e2, 9.54568527e2,
    2.85702593e3, 9.16582180e3, 3.19902665e4, 1.24035724e5, 5.51234936e5, 2.95328739e6, 2.09035660e7, 2.39440270e8, 8.84502510e9],
   [5.30332650e-1, 8.06523567e-1, 1.55979241, 3.33569866, 7.47445459, 1.73083833e1, 4.13724934e1, 1.02344439e2, 2.63076444e2, 7.06358971e2,
    1.99404968e3, 5.96818340e3, 1.91469242e4, 6.68259783e4, 2.59104051e5, 1.15150051e6, 6.16926048e6, 4.36664387e7, 5.00177999e8, 1.84767871e10],
   [5.28880175e-1, 7.90064646e-1, 1.49166818, 3.11169123, 6.79460687, 1.53022232e1, 3.54744802e1, 8.48133183e1, 2.09811327e2, 5.39318941e2,
    1.44806292e3, 4.08786889e3, 1.22349644e4, 3.92517841e4, 1.36995296e5, 5.31171201e5, 2.36061113e6, 1.26471714e7, 8.95175167e7, 1.02537996e9,
    3.78779667e10],
   [5.27561086e-1, 7.75289770e-1, 1.43163225, 2.91870531, 6.22392126, 1.36663812e1, 3.08180875e1, 7.14633096e1, 1.70863574e2, 4.22682886e2,
    1.08650017e3, 2.91722891e3, 8.23530196e3, 2.46481913e4, 7.90754456e4, 2.75986521e5, 1.07008124e6, 4.75561505e6, 2.54786070e7, 1.80339276e8,
    2.06569949e9, 7.63078699e10],
   [5.26357773e-1, 7.61953003e-1, 1.37834431, 2.75091946, 5.73935690, 1.23135225e1, 2.70778648e1, 6.10812250e1, 1.41648012e2, 3.38671568e2,
    8.37804176e2, 2.15355779e3, 5.78224688e3, 1.63232020e4, 4.88551970e4, 1.56735488e5, 5.47033061e5, 2.12100871e6, 9.42610747e6, 5.05011626e7,
    3.57450664e8, 4.09442418e9, 1.51249719e11],
   [5.25255604e-1, 7.49854068e-1, 1.33074174, 2.60385218, 5.32372895, 1.11806970e1, 2.40278084e1, 5.28584810e1, 1.19245289e2, 2.76533587e2,
    6.61173063e2, 1.63560280e3, 4.20427626e3, 1.12883658e4, 3.18668911e4, 9.53773075e4, 3.05986021e5, 1.06794226e6, 4.14072713e6, 1.84020642e7,
    9.85906029e7, 6.97830919e8, 7.99331715e9, 2.95276609e11],
   [5.24242327e-1, 7.38828327e-1, 1.28797215, 2.47400433, 4.96400225, 1.02216181e1, 2.15072525e1, 4.62410786e1, 1.01735082e2, 2.29511118e2,
    5.32243145e2, 1.27255497e3, 3.14803038e3, 8.09193378e3, 2.17266328e4, 6.13340152e4, 1.83572221e5, 5.88930254e5, 2.05546784e6, 7.96968224e6,
    3.54186923e7, 1.89760150e8, 1.34314020e9, 1.53849689e10, 5.68317516e11]
  ]

/-- `_a_erf` (l. 479). -/
def aErf : List (List ℚ) := aQ.map fun l => 1 :: l.map fun a => -2 * a

/-- `_b_erf` (l. 480). -/
def bErf : List (List ℚ) := bQ.map fun l => 0 :: l.map fun b => b * 2

/-- `l[N]`: negative indices count from the end; `none` is `IndexError`. -/
def pyGet {α : Type} (l : List α) (N : ℤ) : Option α :=
  if 0 ≤ N then l[N.toNat]? else if -(l.length : ℤ) ≤ N then l[(l.length + N).toNat]? else none

/-- `_erf_coeffs` (l. 514): pairs of coefficients `(a_n, b_n)`. -/
def erfCoeffs (N : ℤ) : Option (List (ℝ × ℝ)) :=
  (pyGet aErf N).bind fun a => (pyGet bErf N).map fun b => List.zipWith (fun (x y : ℚ) => ((x : ℝ), (y : ℝ))) a b

/-- The check of the option `nFLS` in `_check_inputs` (`_base_solver.py` l. 620). -/
def nFLSAccepted (N : ℤ) : Prop := 1 ≤ N ∧ N ≤ 25

/-- All lengths divided by `np.sqrt(4*alpha*time)` (l. 401-405). -/
def Pair.scaled (g : Pair) (alpha t : ℝ) : Pair :=
  ⟨g.dis / √(4 * alpha * t), g.H1 / √(4 * alpha * t), g.D1 / √(4 * alpha * t), g.H2 / √(4 * alpha * t), g.D2 / √(4 * alpha * t)⟩

/-- `p`, `q` of the approximation (l. 406-440), before taking the absolute values. -/
def Pair.pq (g : Pair) (rea img : Bool) : List (ℝ × ℝ) :=
  if rea && img then List.zip [1, -1, 1, -1, 1, -1, 1, -1] g.qAll
  else if rea then List.zip [1, -1, 1, -1] g.qRea
  else if img then List.zip [1, -1, 1, -1] g.qImg
  else [(0, 0)]

/-- `np.inner(a, 0.5 * exp1(dd + qq * b))` (l. 448-450). -/
def expSum (e1 : ℝ → ℝ) (ab : List (ℝ × ℝ)) (dd qq : ℝ) : ℝ := (ab.map fun c => c.1 * (0.5 * e1 (dd + qq * c.2))).sum

/-- `G1` (l. 446-450). -/
def G1 (e1 : ℝ → ℝ) (ab : List (ℝ × ℝ)) (dis : ℝ) (pq : List (ℝ × ℝ)) : ℝ :=
  (pq.map fun x => x.1 * (|x.2| * expSum e1 ab (dis ^ 2) (|x.2| ^ 2))).sum

/-- One element of `np.exp(-x3**2) / np.sqrt(np.pi) - x3 * erfc(x3)` (l. 451-452). -/
def ierfcTerm (dis q : ℝ) : ℝ := exp (-√(dis ^ 2 + |q| ^ 2) ^ 2) / √π - √(dis ^ 2 + |q| ^ 2) * erfc √(dis ^ 2 + |q| ^ 2)

/-- `G3` (l. 451-452). -/
def G3 (dis : ℝ) (pq : List (ℝ × ℝ)) : ℝ := (pq.map fun x => x.1 * ierfcTerm dis x.2).sum

/-- `finite_line_source_approximation` for a given exponential integral and given coefficients (l. 401-454). -/
def approxWith (e1 : ℝ → ℝ) (ab : List (ℝ × ℝ)) (t alpha : ℝ) (g : Pair) (rea img : Bool) : ℝ :=
  let g' := g.scaled alpha t
  0.5 / g'.H2 * (G1 e1 ab g'.dis (g'.pq rea img) + G3 g'.dis (g'.pq rea img))

/-- `finite_line_source_approximation` (l. 349-455). -/
def approx (t alpha : ℝ) (g : Pair) (rea img : Bool) (N : ℤ) : Option ℝ := (erfCoeffs N).map fun ab => approxWith exp1 ab t alpha g rea img

namespace Incl

open Bore

/-- `pRea_1 * exp1((cRea + b * dRea_1**2) ss) - pRea_2 * exp1((cRea + b * dRea_2**2) ss)` summed with the coefficients `a` for one node
(l. 578-602, 611-624, 633-646), with `c = max(rr + dz**2 - d_1**2 + (k_1 + u H1)**2 - k_1**2, rb1**2)`. -/
def approxNode (e1 : ℝ → ℝ) (ab : List (ℝ × ℝ)) (rb rr dz k0 k1 k2 H1 H2 ss u : ℝ) : ℝ :=
  let d1 := u * H1 * k0 + k2
  let d2 := u * H1 * k0 + k2 - H2
  let c := max (rr + dz ^ 2 - d1 ^ 2 + (k1 + u * H1) ^ 2 - k1 ^ 2) (rb ^ 2)
  (ab.map fun x => x.1 * (SignType.sign d1 * e1 ((c + x.2 * d1 ^ 2) * ss) - SignType.sign d2 * e1 ((c + x.2 * d2 ^ 2) * ss))).sum

/-- The nodes of the real source. -/
def approxRea (e1 : ℝ → ℝ) (ab : List (ℝ × ℝ)) (ss : ℝ) (b1 b2 : Borehole) (nodes : List (ℝ × ℝ)) : ℝ :=
  (nodes.map fun n => n.2 * approxNode e1 ab b1.rb (dx b1 b2 ^ 2 + dy b1 b2 ^ 2) (dzRea b1 b2) (kRea0 b1 b2) (kRea1 b1 b2) (kRea2 b1 b2) b1.H b2.H ss n.1).sum

/-- The nodes of the image source. -/
def approxImg (e1 : ℝ → ℝ) (ab : List (ℝ × ℝ)) (ss : ℝ) (b1 b2 : Borehole) (nodes : List (ℝ × ℝ)) : ℝ :=
  (nodes.map fun n => n.2 * approxNode e1 ab b1.rb (dx b1 b2 ^ 2 + dy b1 b2 ^ 2) (dzImg b1 b2) (kImg0 b1 b2) (kImg1 b1 b2) (kImg2 b1 b2) b1.H b2.H ss n.1).sum

/-- `finite_line_source_inclined_approximation` (l. 533-650) for a given exponential integral and given coefficients. -/
def approxWith (e1 : ℝ → ℝ) (ab : List (ℝ × ℝ)) (t alpha : ℝ) (b1 b2 : Borehole) (nodes : List (ℝ × ℝ)) (rea img : Bool) : ℝ :=
  let ss := 1 / (4 * alpha * t)
  if rea && img then 0.25 * (b1.H / b2.H) * (approxRea e1 ab ss b1 b2 nodes - approxImg e1 ab ss b1 b2 nodes)
  else if rea then 0.25 * (b1.H / b2.H) * approxRea e1 ab ss b1 b2 nodes
  else if img then 0.25 * (b1.H / b2.H) * -approxImg e1 ab ss b1 b2 nodes
  else 0

/-- `finite_line_source_inclined_approximation` (l. 458-650). -/
def approx (t alpha : ℝ) (b1 b2 : Borehole) (nodes : List (ℝ × ℝ)) (rea img : Bool) (N : ℤ) : Option ℝ :=
  (erfCoeffs N).map fun ab => approxWith exp1 ab t alpha b1 b2 nodes rea img

end Incl

end Verif.FLS
