import Verif.FLS.ErfCheck

/-!
# Checks of the coefficients of `utilities._erf_coeffs` (rows 14 to 18)

The rows `r` are the coefficients of the code times `10 ^ 20` (`ErfProps.rows_eq`), the meshes `m` the certificates of the checker.
-/

namespace Verif.FLS.ErfCheck

def r14 : List (ℕ × ℕ) :=
  [(34231992200000000000, 108109599400000000000), (24851691000000000000, 185631246600000000000),
   (15768112480000000000, 420906836000000000000), (9829356320000000000, 1062632140000000000000),
   (6139996280000000000, 2844206260000000000000), (3809166800000000000, 8025829820000000000000),
   (2323389300000000000, 24021057400000000000000), (1382531172000000000, 77065287600000000000000),
   (797041112000000000, 268974076000000000000000), (441683196000000000, 1042896864000000000000000),
   (232769592000000000, 4634810460000000000000000), (114791764400000000, 24831397000000000000000000),
   (51556374200000000, 175758311200000000000000000), (20023557000000000, 2013226760000000000000000000),
   (5898872520000000, 74369450400000000000000000000)]

def m14 : List (ℕ × ℕ) :=
  [(1, 256), (1, 512), (1, 1024), (1, 2048), (7, 4096), (6, 8192), (3, 16384), (5, 8192), (11, 16384), (4, 32768), (8, 16384),
   (16, 32768), (3, 65536), (13, 32768), (9, 65536), (6, 32768), (29, 65536), (3, 131072), (21, 65536), (10, 131072),
   (18, 65536), (78, 131072), (7, 262144), (35, 131072), (16, 262144), (32, 131072), (33, 262144), (12, 131072), (85, 262144),
   (5, 524288), (65, 262144), (16, 524288), (63, 262144), (32, 524288), (55, 262144), (55, 524288), (38, 262144), (278, 524288),
   (12, 1048576), (132, 524288), (34, 1048576), (121, 524288), (73, 1048576), (73, 524288), (194, 1048576), (112, 2097152),
   (63, 4194304), (12, 8388608), (6, 16777216), (3, 33554432), (1, 67108864)]

theorem check14 : smallOk r14 = true ∧ check r14 11529215046068 m14 = true := by decide +kernel

def r15 : List (ℕ × ℕ) :=
  [(33242526400000000000, 107597157800000000000), (24507083200000000000, 179330536600000000000),
   (15815664300000000000, 391277632000000000000), (10010315660000000000, 948639974000000000000),
   (6355150160000000000, 2429202340000000000000), (4018247420000000000, 6518567060000000000000),
   (2506997400000000000, 18401097320000000000000), (1532588638000000000, 55075431200000000000000),
   (912707898000000000, 176693440600000000000000), (526325480000000000, 616693258000000000000000),
   (291688874000000000, 2391106820000000000000000), (153725127600000000, 10626474540000000000000000),
   (75810899800000000, 56932239000000000000000000), (34048952200000000, 402970220000000000000000000),
   (13223995260000000, 4615829640000000000000000000), (3895744560000000, 170510704000000000000000000000)]

def m15 : List (ℕ × ℕ) :=
  [(1, 256), (1, 512), (1, 1024), (1, 2048), (4, 4096), (4, 8192), (1, 16384), (5, 8192), (8, 16384), (1, 32768), (8, 16384),
   (24, 32768), (47, 65536), (4, 131072), (15, 65536), (87, 131072), (7, 262144), (26, 131072), (139, 262144), (1, 524288),
   (58, 262144), (16, 524288), (42, 262144), (352, 524288), (3, 1048576), (119, 524288), (26, 1048576), (95, 524288),
   (386, 1048576), (110, 2097152), (45, 4194304), (20, 8388608), (7, 16777216), (3, 33554432), (1, 67108864)]

theorem check15 : smallOk r15 = true ∧ check r15 11529215046068 m15 = true := by decide +kernel

def r16 : List (ℕ × ℕ) :=
  [(32335196800000000000, 107145961000000000000), (24171413000000000000, 173895162400000000000),
   (15843578700000000000, 366515112000000000000), (10167530880000000000, 857023474000000000000),
   (6548300100000000000, 2110567080000000000000), (4209547500000000000, 5421006060000000000000),
   (2678092560000000000, 14554089580000000000000), (1675224628000000000, 41086579000000000000000),
   (1025126510000000000, 122973522200000000000000), (610712528000000000, 394521954000000000000000),
   (352216444000000000, 1376951260000000000000000), (195204678800000000, 5338851360000000000000000),
   (102877247600000000, 23726730000000000000000000), (50734935200000000, 127117954800000000000000000),
   (22786593600000000, 899749418000000000000000000), (8849900180000000, 10306195800000000000000000000),
   (2607150860000000, 380715242000000000000000000000)]

def m16 : List (ℕ × ℕ) :=
  [(1, 256), (1, 512), (1, 1024), (1, 2048), (1, 4096), (1, 2048), (1, 4096), (8, 8192), (13, 16384), (26, 32768), (45, 65536),
   (90, 131072), (6, 262144), (18, 131072), (176, 262144), (12, 524288), (33, 262144), (408, 524288), (13, 1048576),
   (92, 524288), (353, 1048576), (150, 2097152), (38, 4194304), (23, 8388608), (7, 16777216), (4, 33554432), (1, 67108864)]

theorem check16 : smallOk r16 = true ∧ check r16 11529215046068 m16 = true := by decide +kernel

def r17 : List (ℕ × ℕ) :=
  [(31499162600000000000, 106745621200000000000), (23845244600000000000, 169158594000000000000),
   (15855347040000000000, 345533566000000000000), (10304527740000000000, 782031956000000000000),
   (6722401740000000000, 1860017282000000000000), (4385093600000000000, 4596807940000000000000),
   (2837708960000000000, 11814448900000000000000), (1810654484000000000, 31721649400000000000000),
   (1133961508000000000, 89551022600000000000000), (694218218000000000, 268027478000000000000000),
   (413640578000000000, 859878950000000000000000), (238571222000000000, 3001124860000000000000000),
   (132222480200000000, 11636251420000000000000000), (69684505400000000, 51713398600000000000000000),
   (34365639400000000, 277058874000000000000000000), (15434650920000000, 1961041290000000000000000000),
   (5994539000000000, 22462782400000000000000000000), (1765971060000000, 829784710000000000000000000000)]

def m17 : List (ℕ × ℕ) :=
  [(1, 256), (1, 512), (1, 1024), (3, 2048), (1, 4096), (6, 8192), (9, 16384), (29, 32768), (42, 65536), (83, 131072),
   (2, 262144), (20, 131072), (159, 262144), (3, 524288), (37, 262144), (452, 524288), (409, 1048576), (132, 2097152),
   (42, 4194304), (23, 8388608), (8, 16777216), (3, 33554432), (1, 67108864)]

theorem check17 : smallOk r17 = true ∧ check r17 11529215046068 m17 = true := by decide +kernel

def r18 : List (ℕ × ℕ) :=
  [(30725494800000000000, 106387977800000000000), (23528825400000000000, 164994360200000000000),
   (15853756960000000000, 327543600000000000000), (10424166780000000000, 719682344000000000000),
   (6879902460000000000, 1658990682000000000000), (4546631600000000000, 3961761780000000000000),
   (2986813380000000000, 9798711620000000000000), (1939176070000000000, 25187173600000000000000),
   (1239038322000000000, 67627734000000000000000), (776397332000000000, 190913705400000000000000),
   (475411336000000000, 571405186000000000000000), (283287422000000000, 1833164360000000000000000),
   (163392525800000000, 6398053300000000000000000), (90557083400000000, 24807144800000000000000000),
   (47725903800000000, 110246987200000000000000000), (23536537000000000, 590657478000000000000000000),
   (10570973560000000, 4180713200000000000000000000), (4105574820000000, 47888054000000000000000000000),
   (1209488556000000, 1769005020000000000000000000000)]

def m18 : List (ℕ × ℕ) :=
  [(1, 256), (1, 512), (1, 1024), (2, 2048), (1, 4096), (5, 8192), (10, 16384), (1, 32768), (1, 16384), (20, 32768), (44, 65536),
   (96, 131072), (183, 262144), (397, 524288), (4, 1048576), (73, 524288), (406, 1048576), (120, 2097152), (47, 4194304),
   (22, 8388608), (8, 16777216), (4, 33554432), (1, 67108864)]

theorem check18 : smallOk r18 = true ∧ check r18 11529215046068 m18 = true := by decide +kernel

end Verif.FLS.ErfCheck
