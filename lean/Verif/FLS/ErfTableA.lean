import Verif.FLS.ErfCheck

/-!
# Checks of the coefficients of `utilities._erf_coeffs` (rows 0 to 13)

The rows `r` are the coefficients of the code times `10 ^ 20` (`ErfProps.rows_eq`), the meshes `m` the certificates of the checker.
-/

namespace Verif.FLS.ErfCheck

def r0 : List (ℕ × ℕ) :=
  [(100000000000000000000, 295022696987629900000)]

def m0 : List (ℕ × ℕ) :=
  [(1, 256), (1, 512), (1, 1024), (1, 2048), (1, 4096), (1, 8192), (1, 16384), (1, 32768), (1, 65536), (1, 131072), (1, 262144),
   (1, 524288), (1, 1048576), (1, 2097152), (1, 4194304), (1, 8388608), (1, 16777216), (1, 33554432), (3, 16777216),
   (1, 33554432), (2, 67108864), (4, 33554432), (3, 16777216), (2, 33554432), (1, 67108864)]

theorem check0 : smallOk r0 = true ∧ check r0 138350580552821637 m0 = true := by decide +kernel

def r1 : List (ℕ × ℕ) :=
  [(77793328000000000000, 173017230000000000000), (22206672000000000000, 5348891754000000000000)]

def m1 : List (ℕ × ℕ) :=
  [(1, 256), (1, 512), (1, 1024), (1, 2048), (1, 4096), (1, 8192), (1, 16384), (1, 32768), (1, 65536), (1, 131072), (1, 262144),
   (1, 524288), (1, 1048576), (1, 2097152), (1, 4194304), (3, 8388608), (2, 16777216), (5, 8388608), (1, 16777216),
   (3, 33554432), (4, 16777216), (13, 33554432), (2, 67108864)]

theorem check1 : smallOk r1 = true ∧ check r1 34587645138205409 m1 = true := by decide +kernel

def r2 : List (ℕ × ℕ) :=
  [(67055924000000000000, 144739578000000000000), (25621186000000000000, 1312503796000000000000),
   (7322890000000000000, 48377903948000000000000)]

def m2 : List (ℕ × ℕ) :=
  [(1, 256), (1, 512), (1, 1024), (1, 2048), (1, 4096), (1, 8192), (1, 16384), (1, 32768), (1, 65536), (1, 131072), (1, 262144),
   (1, 524288), (1, 1048576), (3, 2097152), (5, 4194304), (2, 2097152), (2, 4194304), (8, 8388608), (3, 16777216), (8, 8388608),
   (2, 16777216), (1, 33554432), (5, 16777216), (1, 8388608), (4, 16777216), (5, 33554432), (10, 16777216), (3, 33554432),
   (2, 67108864)]

theorem check2 : smallOk r2 = true ∧ check r2 11529215046068469 m2 = true := by decide +kernel

def r3 : List (ℕ × ℕ) :=
  [(60061966000000000000, 132319622600000000000), (26975838000000000000, 717015306000000000000),
   (10027112000000000000, 8130879000000000000000), (2935084000000000000, 300519830000000000000000)]

def m3 : List (ℕ × ℕ) :=
  [(1, 256), (1, 512), (1, 1024), (1, 2048), (1, 4096), (1, 8192), (1, 16384), (1, 32768), (1, 65536), (1, 131072), (1, 262144),
   (1, 524288), (3, 1048576), (3, 2097152), (4, 1048576), (1, 2097152), (4, 4194304), (1, 2097152), (2, 4194304), (1, 8388608),
   (10, 4194304), (6, 8388608), (5, 4194304), (3, 8388608), (1, 16777216), (8, 8388608), (3, 4194304), (5, 8388608),
   (6, 16777216), (11, 8388608), (23, 16777216), (3, 33554432), (2, 67108864)]

theorem check3 : smallOk r3 = true ∧ check r3 4611686018427387 m3 = true := by decide +kernel

def r4 : List (ℕ × ℕ) :=
  [(54958798000000000000, 125335083400000000000), (27497168000000000000, 503046414000000000000),
   (11724270000000000000, 3494090980000000000000), (4496866000000000000, 40026011600000000000000),
   (1322898000000000000, 1478825480000000000000000)]

def m4 : List (ℕ × ℕ) :=
  [(1, 256), (1, 512), (1, 1024), (1, 2048), (1, 4096), (1, 8192), (1, 16384), (1, 32768), (1, 65536), (1, 131072), (1, 262144),
   (2, 524288), (3, 1048576), (3, 524288), (1, 1048576), (6, 2097152), (1, 4194304), (9, 2097152), (10, 4194304), (1, 8388608),
   (13, 4194304), (6, 8388608), (8, 4194304), (12, 8388608), (7, 4194304), (8, 8388608), (2, 16777216), (18, 8388608),
   (22, 16777216), (3, 33554432), (2, 67108864)]

theorem check4 : smallOk r4 = true ∧ check r4 2305843009213693 m4 = true := by decide +kernel

def r5 : List (ℕ × ℕ) :=
  [(51006814000000000000, 120853535800000000000), (27605932000000000000, 396541496000000000000),
   (12869700000000000000, 2066363780000000000000), (5674222000000000000, 14613354060000000000000),
   (2196480000000000000, 167421232800000000000000), (646852000000000000, 6184889420000000000000000)]

def m5 : List (ℕ × ℕ) :=
  [(1, 256), (1, 512), (1, 1024), (1, 2048), (1, 4096), (1, 8192), (1, 16384), (1, 32768), (1, 65536), (1, 131072), (2, 262144),
   (2, 524288), (5, 262144), (1, 524288), (6, 1048576), (1, 2097152), (8, 1048576), (10, 2097152), (1, 4194304), (12, 2097152),
   (6, 4194304), (8, 2097152), (22, 4194304), (3, 8388608), (18, 4194304), (8, 8388608), (18, 4194304), (31, 8388608),
   (21, 16777216), (3, 33554432), (2, 67108864)]

theorem check5 : smallOk r5 = true ∧ check r5 1152921504606846 m5 = true := by decide +kernel

def r6 : List (ℕ × ℕ) :=
  [(47822978000000000000, 117730584600000000000), (27497264000000000000, 333677240000000000000),
   (13676068000000000000, 1429994466000000000000), (6585358000000000000, 7644860100000000000000),
   (2941004000000000000, 54118234200000000000000), (1141174000000000000, 619941638000000000000000),
   (336154000000000000, 22901196600000000000000000)]

def m6 : List (ℕ × ℕ) :=
  [(1, 256), (1, 512), (1, 1024), (1, 2048), (1, 4096), (1, 8192), (1, 16384), (1, 32768), (1, 65536), (2, 131072), (3, 262144),
   (3, 131072), (1, 262144), (7, 524288), (1, 1048576), (8, 524288), (11, 1048576), (1, 2097152), (12, 1048576), (6, 2097152),
   (8, 1048576), (23, 2097152), (4, 4194304), (16, 2097152), (9, 4194304), (18, 2097152), (18, 4194304), (12, 2097152),
   (11, 4194304), (1, 8388608), (34, 4194304), (11, 8388608), (22, 4194304), (10, 8388608), (5, 16777216), (18, 8388608),
   (6, 16777216), (3, 33554432), (2, 67108864)]

theorem check6 : smallOk r6 = true ∧ check r6 576460752303423 m6 = true := by decide +kernel

def r7 : List (ℕ × ℕ) :=
  [(45183394000000000000, 115427781800000000000), (27268516000000000000, 292470966000000000000),
   (14262182000000000000, 1084682580000000000000), (7305338000000000000, 4802593300000000000000),
   (3573262000000000000, 25730078200000000000000), (1602036000000000000, 182134459200000000000000),
   (622028000000000000, 2086310200000000000000000), (183242000000000000, 77069477400000000000000000)]

def m7 : List (ℕ × ℕ) :=
  [(1, 256), (1, 512), (1, 1024), (1, 2048), (1, 4096), (1, 8192), (1, 16384), (1, 32768), (1, 65536), (7, 131072), (6, 262144),
   (2, 524288), (7, 262144), (11, 524288), (3, 1048576), (9, 524288), (16, 1048576), (2, 2097152), (15, 1048576), (7, 2097152),
   (10, 1048576), (28, 2097152), (2, 4194304), (24, 2097152), (7, 4194304), (25, 2097152), (15, 4194304), (20, 2097152),
   (50, 4194304), (6, 8388608), (31, 4194304), (36, 8388608), (7, 16777216), (3, 33554432), (2, 67108864)]

theorem check7 : smallOk r7 = true ∧ check r7 345876451382054 m7 = true := by decide +kernel

def r8 : List (ℕ × ℕ) :=
  [(42946774000000000000, 113658444600000000000), (26972264000000000000, 263479512000000000000),
   (14697194000000000000, 872948766000000000000), (7886216000000000000, 3366110080000000000000),
   (4111586000000000000, 14955930180000000000000), (2022024000000000000, 80134093400000000000000),
   (907630000000000000, 567212988000000000000000), (352474000000000000, 6497200920000000000000000),
   (103836000000000000, 240009654000000000000000000)]

def m8 : List (ℕ × ℕ) :=
  [(1, 256), (1, 512), (1, 1024), (1, 2048), (1, 4096), (1, 8192), (1, 16384), (3, 32768), (4, 65536), (3, 32768), (1, 65536),
   (7, 131072), (3, 262144), (7, 131072), (2, 262144), (1, 524288), (8, 262144), (4, 524288), (10, 262144), (11, 524288),
   (1, 262144), (6, 524288), (3, 1048576), (15, 524288), (8, 1048576), (14, 524288), (16, 1048576), (10, 524288), (9, 1048576),
   (3, 2097152), (25, 1048576), (9, 2097152), (27, 1048576), (17, 2097152), (25, 1048576), (29, 2097152), (21, 1048576),
   (17, 2097152), (4, 4194304), (48, 2097152), (13, 4194304), (45, 2097152), (37, 4194304), (6, 2097152), (19, 4194304),
   (39, 8388608), (5, 16777216), (3, 33554432), (2, 67108864)]

theorem check8 : smallOk r8 = true ∧ check r8 172938225691027 m8 = true := by decide +kernel

def r9 : List (ℕ × ℕ) :=
  [(41018792000000000000, 112255815600000000000), (26638680000000000000, 242016926000000000000),
   (15023988000000000000, 731876714000000000000), (8362978000000000000, 2535466480000000000000),
   (4573594000000000000, 9825276080000000000000), (2400890000000000000, 43667600000000000000000),
   (1182866000000000000, 233962140000000000000000), (531156000000000000, 1656019624000000000000000),
   (206284000000000000, 18968956780000000000000000), (60770000000000000, 700721604000000000000000000)]

def m9 : List (ℕ × ℕ) :=
  [(1, 256), (1, 512), (1, 1024), (1, 2048), (1, 4096), (1, 8192), (1, 16384), (2, 32768), (1, 65536), (4, 32768), (1, 65536),
   (2, 131072), (2, 65536), (10, 131072), (3, 262144), (4, 131072), (14, 262144), (2, 524288), (11, 262144), (7, 524288),
   (9, 262144), (24, 524288), (3, 1048576), (20, 524288), (10, 1048576), (14, 524288), (37, 1048576), (1, 2097152),
   (34, 1048576), (7, 2097152), (34, 1048576), (16, 2097152), (30, 1048576), (30, 2097152), (21, 1048576), (80, 2097152),
   (7, 4194304), (55, 2097152), (60, 4194304), (36, 8388608), (6, 16777216), (3, 33554432), (2, 67108864)]

theorem check9 : smallOk r9 = true ∧ check r9 115292150460684 m9 = true := by decide +kernel

def r10 : List (ℕ × ℕ) :=
  [(39333647400000000000, 111116224600000000000), (26285840200000000000, 225507926000000000000),
   (15270673420000000000, 632077856000000000000), (8759760120000000000, 2008719300000000000000),
   (4973417820000000000, 7004113700000000000000), (2742109680000000000, 27157298600000000000000),
   (1443036488000000000, 120696625800000000000000), (711394270000000000, 646652884000000000000000),
   (319485678000000000, 4577072980000000000000000), (124081060800000000, 52428215000000000000000000),
   (36553823000000000, 1936720788000000000000000000)]

def m10 : List (ℕ × ℕ) :=
  [(1, 256), (1, 512), (1, 1024), (1, 2048), (1, 4096), (1, 8192), (2, 16384), (2, 32768), (4, 16384), (1, 32768), (15, 65536),
   (22, 131072), (5, 262144), (7, 131072), (20, 262144), (3, 524288), (15, 262144), (8, 524288), (14, 262144), (31, 524288),
   (1, 1048576), (29, 524288), (8, 1048576), (26, 524288), (17, 1048576), (21, 524288), (109, 1048576), (8, 2097152),
   (53, 1048576), (18, 2097152), (52, 1048576), (35, 2097152), (37, 1048576), (99, 2097152), (23, 4194304), (32, 2097152),
   (21, 4194304), (35, 8388608), (6, 16777216), (3, 33554432), (2, 67108864)]

theorem check10 : smallOk r10 = true ∧ check r10 69175290276410 m10 = true := by decide +kernel

def r11 : List (ℕ × ℕ) :=
  [(37843791800000000000, 110171793200000000000), (25924900400000000000, 212425118000000000000),
   (15456495400000000000, 558213846000000000000), (9093729320000000000, 1651533660000000000000),
   (5322136400000000000, 5290922660000000000000), (3049785520000000000, 18465102920000000000000),
   (1686839882000000000, 71597562000000000000000), (888505760000000000, 318197618000000000000000),
   (438116414000000000, 1704781588000000000000000), (196765991400000000, 12066579100000000000000000),
   (76420024600000000, 138216896600000000000000000), (22513073200000000, 5105791060000000000000000000)]

def m11 : List (ℕ × ℕ) :=
  [(1, 256), (1, 512), (1, 1024), (1, 2048), (1, 4096), (1, 8192), (6, 16384), (6, 32768), (3, 65536), (5, 32768), (10, 65536),
   (4, 131072), (7, 65536), (16, 131072), (2, 262144), (13, 131072), (9, 262144), (4, 131072), (28, 262144), (3, 524288),
   (21, 262144), (9, 524288), (18, 262144), (75, 524288), (5, 1048576), (36, 524288), (15, 1048576), (32, 524288), (30, 1048576),
   (15, 524288), (157, 1048576), (9, 2097152), (73, 1048576), (25, 2097152), (59, 1048576), (101, 2097152), (14, 4194304),
   (47, 2097152), (22, 4194304), (34, 8388608), (6, 16777216), (3, 33554432), (2, 67108864)]

theorem check11 : smallOk r11 = true ∧ check r11 46116860184273 m11 = true := by decide +kernel

def r12 : List (ℕ × ℕ) :=
  [(36513861000000000000, 109376194800000000000), (25562872800000000000, 201807452000000000000),
   (15595110680000000000, 501586474000000000000), (9377431700000000000, 1396716628000000000000),
   (5628449080000000000, 4172285940000000000000), (3327873460000000000, 13383318760000000000000),
   (1914330252000000000, 46711512400000000000000), (1060114638000000000, 181118461000000000000000),
   (558582566000000000, 804926870000000000000000), (275456136000000000, 4312474600000000000000000),
   (123714379800000000, 30524005000000000000000000), (48048345600000000, 349637812000000000000000000),
   (14154878920000000, 12915769280000000000000000000)]

def m12 : List (ℕ × ℕ) :=
  [(1, 256), (1, 512), (1, 1024), (1, 2048), (1, 4096), (8, 8192), (1, 16384), (2, 32768), (1, 16384), (9, 32768), (3, 65536),
   (3, 32768), (14, 65536), (2, 131072), (9, 65536), (7, 131072), (7, 65536), (23, 131072), (3, 262144), (18, 131072),
   (10, 262144), (11, 131072), (68, 262144), (7, 524288), (29, 262144), (18, 524288), (20, 262144), (113, 524288), (7, 1048576),
   (55, 524288), (18, 1048576), (52, 524288), (34, 1048576), (42, 524288), (208, 1048576), (7, 2097152), (98, 1048576),
   (38, 2097152), (52, 1048576), (114, 2097152), (53, 4194304), (18, 8388608), (6, 16777216), (3, 33554432), (1, 67108864)]

theorem check12 : smallOk r12 = true ∧ check r12 28823037615171 m12 = true := by decide +kernel

def r13 : List (ℕ × ℕ) :=
  [(35316911400000000000, 108696717800000000000), (25204201000000000000, 193021015400000000000),
   (15696494740000000000, 456934426000000000000), (9620252060000000000, 1207570556000000000000),
   (5899238000000000000, 3400406580000000000000), (3579951880000000000, 10174617100000000000000),
   (2126190680000000000, 32642368600000000000000), (1224981914000000000, 113930059800000000000000),
   (678695630000000000, 441745194000000000000000), (357657416000000000, 1963194684000000000000000),
   (176378710200000000, 10517991540000000000000000), (79216688200000000, 74447069600000000000000000),
   (30766307000000000, 852755338000000000000000000), (9063650160000000, 31501144000000000000000000000)]

def m13 : List (ℕ × ℕ) :=
  [(1, 256), (1, 512), (1, 1024), (1, 2048), (1, 4096), (5, 8192), (5, 16384), (2, 32768), (4, 16384), (9, 32768), (2, 65536),
   (7, 32768), (27, 65536), (54, 131072), (6, 262144), (15, 131072), (63, 262144), (1, 524288), (35, 262144), (10, 524288),
   (27, 262144), (159, 524288), (5, 1048576), (62, 524288), (19, 1048576), (51, 524288), (41, 1048576), (25, 524288),
   (332, 1048576), (170, 2097152), (30, 4194304), (29, 8388608), (7, 16777216), (3, 33554432), (1, 67108864)]

theorem check13 : smallOk r13 = true ∧ check r13 23058430092136 m13 = true := by decide +kernel

end Verif.FLS.ErfCheck
