import Verif.FLS.ErfCheck

/-!
# Checks of the coefficients of `utilities._erf_coeffs` (rows 19 to 24)

The rows `r` are the coefficients of the code times `10 ^ 20` (`ErfProps.rows_eq`), the meshes `m` the certificates of the checker.
-/

namespace Verif.FLS.ErfCheck

def r19 : List (ℕ × ℕ) :=
  [(30006761800000000000, 106066530000000000000), (23222189600000000000, 161304713400000000000),
   (15841058960000000000, 311958482000000000000), (10528795120000000000, 667139732000000000000),
   (7022845420000000000, 1494890918000000000000), (4695668620000000000, 3461676660000000000000),
   (3126295920000000000, 8274498680000000000000), (2061130080000000000, 20468887800000000000000),
   (1340292926000000000, 52615288800000000000000), (856938542000000000, 141271794200000000000000),
   (537104870000000000, 398809936000000000000000), (328916174000000000, 1193636680000000000000000),
   (196000477600000000, 3829384840000000000000000), (113048973000000000, 13365195660000000000000000),
   (62655361800000000, 51820810200000000000000000), (33021010000000000, 230300102000000000000000000),
   (16284665580000000, 1233852096000000000000000000), (7313938180000000, 8733287740000000000000000000),
   (2840601240000000, 100035599800000000000000000000), (836831596000000, 3695357420000000000000000000000)]

def m19 : List (ℕ × ℕ) :=
  [(1, 256), (1, 512), (1, 1024), (2, 2048), (4, 4096), (6, 8192), (11, 16384), (19, 32768), (42, 65536), (91, 131072),
   (166, 262144), (427, 524288), (433, 1048576), (119, 2097152), (49, 4194304), (21, 8388608), (8, 16777216), (4, 33554432),
   (1, 67108864)]

theorem check19 : smallOk r19 = true ∧ check r19 11529215046068 m19 = true := by decide +kernel

def r20 : List (ℕ × ℕ) :=
  [(29336720600000000000, 105776035000000000000), (22925228200000000000, 158012929200000000000),
   (15819087420000000000, 298333636000000000000), (10620358320000000000, 622338246000000000000),
   (7152949480000000000, 1358921374000000000000), (4833509260000000000, 3060444640000000000000),
   (3256968480000000000, 7094896040000000000000), (2176874900000000000, 16962663660000000000000),
   (1437736854000000000, 41962265400000000000000), (935629992000000000, 107863788200000000000000),
   (598395846000000000, 289612584000000000000000), (375102614000000000, 817573778000000000000000),
   (229718198000000000, 2446992880000000000000000), (136890703600000000, 7850356820000000000000000),
   (78956084800000000, 27399059200000000000000000), (43760055800000000, 106234240200000000000000000),
   (23062699600000000, 472122226000000000000000000), (11373618860000000, 2529434280000000000000000000),
   (5108238160000000, 17903503340000000000000000000), (1983947396000000, 205075992000000000000000000000),
   (584464260000000, 7575593340000000000000000000000)]

def m20 : List (ℕ × ℕ) :=
  [(1, 256), (1, 512), (1, 1024), (1, 2048), (3, 4096), (6, 8192), (9, 16384), (22, 32768), (41, 65536), (84, 131072),
   (180, 262144), (434, 524288), (418, 1048576), (125, 2097152), (48, 4194304), (20, 8388608), (9, 16777216), (4, 33554432),
   (1, 67108864)]

theorem check20 : smallOk r20 = true ∧ check r20 11529215046068 m20 = true := by decide +kernel

def r21 : List (ℕ × ℕ) :=
  [(28710082000000000000, 105512217200000000000), (22637737800000000000, 155057954000000000000),
   (15789350380000000000, 286326450000000000000), (10700483740000000000, 583741062000000000000),
   (7271670920000000000, 1244784252000000000000), (4961286480000000000, 2733276240000000000000),
   (3379567600000000000, 6163617500000000000000), (2286770780000000000, 14292661920000000000000),
   (1531432768000000000, 34172714800000000000000), (1012333918000000000, 84536577200000000000000),
   (659036044000000000, 217300034000000000000000), (421559166000000000, 583445782000000000000000),
   (264268326000000000, 1647060392000000000000000), (161845124200000000, 4929638260000000000000000),
   (96445367800000000, 15815089120000000000000000), (55628082000000000, 55197304200000000000000000),
   (30830934400000000, 214016248000000000000000000), (16248720640000000, 951123010000000000000000000),
   (8013241420000000, 5095721400000000000000000000), (3599006080000000, 36067855200000000000000000000),
   (1397816882000000, 413139898000000000000000000000), (411845986000000, 15261573980000000000000000000000)]

def m21 : List (ℕ × ℕ) :=
  [(1, 256), (1, 512), (1, 1024), (1, 2048), (3, 4096), (5, 8192), (12, 16384), (20, 32768), (44, 65536), (83, 131072),
   (169, 262144), (431, 524288), (412, 1048576), (130, 2097152), (48, 4194304), (20, 8388608), (9, 16777216), (4, 33554432),
   (1, 67108864)]

theorem check21 : smallOk r21 = true ∧ check r21 11529215046068 m21 = true := by decide +kernel

def r22 : List (ℕ × ℕ) :=
  [(28122330200000000000, 105271554600000000000), (22359454000000000000, 152390600600000000000),
   (15753096840000000000, 275668862000000000000), (10770544200000000000, 550183892000000000000),
   (7380252360000000000, 1147871380000000000000), (5079987880000000000, 2462704500000000000000),
   (3494759460000000000, 5415572960000000000000), (2391170020000000000, 12216245000000000000000),
   (1621477082000000000, 28329602400000000000000), (1086967810000000000, 67734313600000000000000),
   (718837864000000000, 167560835200000000000000), (468053384000000000, 430711558000000000000000),
   (299417096000000000, 1156449376000000000000000), (187704835000000000, 3264640400000000000000000),
   (114956752400000000, 9771039400000000000000000), (68504294800000000, 31347097600000000000000000),
   (39512182400000000, 109406612200000000000000000), (21898980800000000, 424201742000000000000000000),
   (11541360920000000, 1885221494000000000000000000), (5691780800000000, 10100232520000000000000000000),
   (2556408500000000, 71490132800000000000000000000), (992960652000000, 818884836000000000000000000000),
   (292711996000000, 30249943800000000000000000000000)]

def m22 : List (ℕ × ℕ) :=
  [(1, 256), (1, 512), (1, 1024), (1, 2048), (2, 4096), (6, 8192), (10, 16384), (21, 32768), (41, 65536), (87, 131072),
   (174, 262144), (406, 524288), (422, 1048576), (130, 2097152), (48, 4194304), (20, 8388608), (9, 16777216), (4, 33554432),
   (1, 67108864)]

theorem check22 : smallOk r22 = true ∧ check r22 11529215046068 m22 = true := by decide +kernel

def r23 : List (ℕ × ℕ) :=
  [(27569584400000000000, 105051120800000000000), (22090076000000000000, 149970813600000000000),
   (15711368280000000000, 266148348000000000000), (10831706060000000000, 520770436000000000000),
   (7479759640000000000, 1064745790000000000000), (5190476500000000000, 2236139400000000000000),
   (3603145080000000000, 4805561680000000000000), (2490411040000000000, 10571696200000000000000),
   (1707988018000000000, 23849057800000000000000), (1159490306000000000, 55306717400000000000000),
   (777661302000000000, 132234612600000000000000), (514397844000000000, 327120560000000000000000),
   (334967776000000000, 840855252000000000000000), (214289098000000000, 2257673160000000000000000),
   (134339900800000000, 6373378220000000000000000), (82274693800000000, 19075461500000000000000000),
   (49028699000000000, 61197204200000000000000000), (28278985400000000, 213588452000000000000000000),
   (15673162380000000, 828145426000000000000000000), (8260171500000000, 3680412840000000000000000000),
   (4073592940000000, 19718120580000000000000000000), (1829574410000000, 139566183800000000000000000000),
   (710573570000000, 1598663430000000000000000000000), (209332584000000, 59055321800000000000000000000000)]

def m23 : List (ℕ × ℕ) :=
  [(1, 256), (1, 512), (1, 1024), (2, 2048), (3, 4096), (5, 8192), (11, 16384), (21, 32768), (43, 65536), (81, 131072),
   (169, 262144), (415, 524288), (421, 1048576), (129, 2097152), (48, 4194304), (20, 8388608), (9, 16777216), (4, 33554432),
   (1, 67108864)]

theorem check23 : smallOk r23 = true ∧ check r23 11529215046068 m23 = true := by decide +kernel

def r24 : List (ℕ × ℕ) :=
  [(27048493600000000000, 104848465400000000000), (21829284800000000000, 147765665400000000000),
   (15665038740000000000, 257594430000000000000), (10884966680000000000, 494800866000000000000),
   (7571112360000000000, 992800450000000000000), (5293509380000000000, 2044323620000000000000),
   (3705266200000000000, 4301450500000000000000), (2584813960000000000, 9248215720000000000000),
   (1791095230000000000, 20347016400000000000000), (1229889436000000000, 45902223600000000000000),
   (835403092000000000, 106448629000000000000000), (560441398000000000, 254510994000000000000000),
   (370754612000000000, 629606076000000000000000), (241440558000000000, 1618386756000000000000000),
   (154459686800000000, 4345326560000000000000000), (96832862800000000, 12266803040000000000000000),
   (59304137600000000, 36714444200000000000000000), (35340232600000000, 117786050800000000000000000),
   (20383704000000000, 411093568000000000000000000), (11297323820000000, 1593936448000000000000000000),
   (5953978740000000, 7083738460000000000000000000), (2936263660000000, 37952030000000000000000000000),
   (1318755342000000, 268628040000000000000000000000), (512182630000000, 3076993780000000000000000000000),
   (150885800200000, 113663503200000000000000000000000)]

def m24 : List (ℕ × ℕ) :=
  [(1, 256), (1, 512), (1, 1024), (2, 2048), (3, 4096), (5, 8192), (11, 16384), (21, 32768), (41, 65536), (83, 131072),
   (170, 262144), (411, 524288), (423, 1048576), (129, 2097152), (48, 4194304), (20, 8388608), (9, 16777216), (4, 33554432),
   (1, 67108864)]

theorem check24 : smallOk r24 = true ∧ check r24 11529215046068 m24 = true := by decide +kernel

end Verif.FLS.ErfCheck
