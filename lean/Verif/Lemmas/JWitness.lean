/-! Integer matrices `P` with `J[a, c] = P[a, c] / 2^l * sqrt(w_c / w_a)` (generated). -/

namespace E3nn

def pTable0 : List (List Int) := [
  [1]]

def pTable1 : List (List Int) := [
  [0, -2, 0],
  [-2, 0, 0],
  [0, 0, 2]]

def pTable2 : List (List Int) := [
  [0, 0, 0, -2, 0],
  [0, 4, 0, 0, 0],
  [0, 0, -2, 0, -6],
  [-8, 0, 0, 0, 0],
  [0, 0, -2, 0, 2]]

def pTable3 : List (List Int) := [
  [0, 0, 0, 2, 0, -2, 0],
  [0, 8, 0, 0, 0, 0, 0],
  [0, 0, 0, 6, 0, 10, 0],
  [20, 0, 4, 0, 0, 0, 0],
  [0, 0, 0, 0, -2, 0, -30],
  [-12, 0, 4, 0, 0, 0, 0],
  [0, 0, 0, 0, -2, 0, 2]]

def pTable4 : List (List Int) := [
  [0, 0, 0, 0, 0, 2, 0, -2, 0],
  [0, 12, 0, -4, 0, 0, 0, 0, 0],
  [0, 0, 0, 0, 0, 4, 0, 28, 0],
  [0, -28, 0, -12, 0, 0, 0, 0, 0],
  [0, 0, 0, 0, 6, 0, 10, 0, 70],
  [112, 0, 8, 0, 0, 0, 0, 0, 0],
  [0, 0, 0, 0, 8, 0, 8, 0, -56],
  [-16, 0, 8, 0, 0, 0, 0, 0, 0],
  [0, 0, 0, 0, 2, 0, -2, 0, 2]]

def pTable5 : List (List Int) := [
  [0, 0, 0, 0, 0, -2, 0, 2, 0, -2, 0],
  [0, 16, 0, -8, 0, 0, 0, 0, 0, 0, 0],
  [0, 0, 0, 0, 0, -10, 0, -6, 0, 54, 0],
  [0, -96, 0, -16, 0, 0, 0, 0, 0, 0, 0],
  [0, 0, 0, 0, 0, -20, 0, -28, 0, -84, 0],
  [-252, 0, -28, 0, -12, 0, 0, 0, 0, 0, 0],
  [0, 0, 0, 0, 0, 0, 4, 0, 28, 0, 420],
  [240, 0, -16, 0, -16, 0, 0, 0, 0, 0, 0],
  [0, 0, 0, 0, 0, 0, 6, 0, 26, 0, -90],
  [-20, 0, 12, 0, -4, 0, 0, 0, 0, 0, 0],
  [0, 0, 0, 0, 0, 0, 2, 0, -2, 0, 2]]

def pTable6 : List (List Int) := [
  [0, 0, 0, 0, 0, 0, 0, -2, 0, 2, 0, -2, 0],
  [0, 20, 0, -12, 0, 4, 0, 0, 0, 0, 0, 0, 0],
  [0, 0, 0, 0, 0, 0, 0, -8, 0, -24, 0, 88, 0],
  [0, -220, 0, 4, 0, 20, 0, 0, 0, 0, 0, 0, 0],
  [0, 0, 0, 0, 0, 0, 0, -10, 0, -54, 0, -330, 0],
  [0, 264, 0, 72, 0, 40, 0, 0, 0, 0, 0, 0, 0],
  [0, 0, 0, 0, 0, 0, -20, 0, -28, 0, -84, 0, -924],
  [-1584, 0, -96, 0, -16, 0, 0, 0, 0, 0, 0, 0, 0],
  [0, 0, 0, 0, 0, 0, -30, 0, -34, 0, -30, 0, 990],
  [440, 0, -80, 0, -24, 0, 0, 0, 0, 0, 0, 0, 0],
  [0, 0, 0, 0, 0, 0, -12, 0, -4, 0, 52, 0, -132],
  [-24, 0, 16, 0, -8, 0, 0, 0, 0, 0, 0, 0, 0],
  [0, 0, 0, 0, 0, 0, -2, 0, 2, 0, -2, 0, 2]]

def pTable7 : List (List Int) := [
  [0, 0, 0, 0, 0, 0, 0, 2, 0, -2, 0, 2, 0, -2, 0],
  [0, 24, 0, -16, 0, 8, 0, 0, 0, 0, 0, 0, 0, 0, 0],
  [0, 0, 0, 0, 0, 0, 0, 14, 0, 2, 0, -50, 0, 130, 0],
  [0, -416, 0, 64, 0, 32, 0, 0, 0, 0, 0, 0, 0, 0, 0],
  [0, 0, 0, 0, 0, 0, 0, 42, 0, 38, 0, -22, 0, -858, 0],
  [0, 1144, 0, 176, 0, 40, 0, 0, 0, 0, 0, 0, 0, 0, 0],
  [0, 0, 0, 0, 0, 0, 0, 70, 0, 90, 0, 198, 0, 858, 0],
  [3432, 0, 264, 0, 72, 0, 40, 0, 0, 0, 0, 0, 0, 0, 0],
  [0, 0, 0, 0, 0, 0, 0, 0, -10, 0, -54, 0, -330, 0, -6006],
  [-4004, 0, 44, 0, 76, 0, 60, 0, 0, 0, 0, 0, 0, 0, 0],
  [0, 0, 0, 0, 0, 0, 0, 0, -18, 0, -78, 0, -242, 0, 2002],
  [728, 0, -200, 0, -8, 0, 24, 0, 0, 0, 0, 0, 0, 0, 0],
  [0, 0, 0, 0, 0, 0, 0, 0, -10, 0, -22, 0, 86, 0, -182],
  [-28, 0, 20, 0, -12, 0, 4, 0, 0, 0, 0, 0, 0, 0, 0],
  [0, 0, 0, 0, 0, 0, 0, 0, -2, 0, 2, 0, -2, 0, 2]]

def pTable8 : List (List Int) := [
  [0, 0, 0, 0, 0, 0, 0, 0, 0, 2, 0, -2, 0, 2, 0, -2, 0],
  [0, 28, 0, -20, 0, 12, 0, -4, 0, 0, 0, 0, 0, 0, 0, 0, 0],
  [0, 0, 0, 0, 0, 0, 0, 0, 0, 12, 0, 20, 0, -84, 0, 180, 0],
  [0, -700, 0, 180, 0, 20, 0, -28, 0, 0, 0, 0, 0, 0, 0, 0, 0],
  [0, 0, 0, 0, 0, 0, 0, 0, 0, 28, 0, 100, 0, 156, 0, -1820, 0],
  [0, 3276, 0, 156, 0, -68, 0, -84, 0, 0, 0, 0, 0, 0, 0, 0, 0],
  [0, 0, 0, 0, 0, 0, 0, 0, 0, 28, 0, 132, 0, 572, 0, 4004, 0],
  [0, -2860, 0, -572, 0, -220, 0, -140, 0, 0, 0, 0, 0, 0, 0, 0, 0],
  [0, 0, 0, 0, 0, 0, 0, 0, 70, 0, 90, 0, 198, 0, 858, 0, 12870],
  [22880, 0, 1144, 0, 176, 0, 40, 0, 0, 0, 0, 0, 0, 0, 0, 0, 0],
  [0, 0, 0, 0, 0, 0, 0, 0, 112, 0, 128, 0, 176, 0, 0, 0, -16016],
  [-8736, 0, 728, 0, 240, 0, 72, 0, 0, 0, 0, 0, 0, 0, 0, 0, 0],
  [0, 0, 0, 0, 0, 0, 0, 0, 56, 0, 40, 0, -72, 0, -728, 0, 3640],
  [1120, 0, -392, 0, 48, 0, 40, 0, 0, 0, 0, 0, 0, 0, 0, 0, 0],
  [0, 0, 0, 0, 0, 0, 0, 0, 16, 0, 0, 0, -48, 0, 128, 0, -240],
  [-32, 0, 24, 0, -16, 0, 8, 0, 0, 0, 0, 0, 0, 0, 0, 0, 0],
  [0, 0, 0, 0, 0, 0, 0, 0, 2, 0, -2, 0, 2, 0, -2, 0, 2]]

def pTable9 : List (List Int) := [
  [0, 0, 0, 0, 0, 0, 0, 0, 0, -2, 0, 2, 0, -2, 0, 2, 0, -2, 0],
  [0, 32, 0, -24, 0, 16, 0, -8, 0, 0, 0, 0, 0, 0, 0, 0, 0, 0, 0],
  [0, 0, 0, 0, 0, 0, 0, 0, 0, -18, 0, 2, 0, 46, 0, -126, 0, 238, 0],
  [0, -1088, 0, 368, 0, -32, 0, -48, 0, 0, 0, 0, 0, 0, 0, 0, 0, 0, 0],
  [0, 0, 0, 0, 0, 0, 0, 0, 0, -72, 0, -40, 0, 120, 0, 600, 0, -3400, 0],
  [0, 7616, 0, -336, 0, -288, 0, -112, 0, 0, 0, 0, 0, 0, 0, 0, 0, 0, 0],
  [0, 0, 0, 0, 0, 0, 0, 0, 0, -168, 0, -168, 0, -104, 0, 728, 0, 12376, 0],
  [0, -14144, 0, -1872, 0, -416, 0, -112, 0, 0, 0, 0, 0, 0, 0, 0, 0, 0, 0],
  [0, 0, 0, 0, 0, 0, 0, 0, 0, -252, 0, -308, 0, -572, 0, -1716, 0, -9724, 0],
  [-48620, 0, -2860, 0, -572, 0, -220, 0, -140, 0, 0, 0, 0, 0, 0, 0, 0, 0, 0],
  [0, 0, 0, 0, 0, 0, 0, 0, 0, 0, 28, 0, 132, 0, 572, 0, 4004, 0, 87516],
  [63648, 0, 416, 0, -416, 0, -288, 0, -224, 0, 0, 0, 0, 0, 0, 0, 0, 0, 0],
  [0, 0, 0, 0, 0, 0, 0, 0, 0, 0, 56, 0, 232, 0, 728, 0, 2184, 0, -37128],
  [-17136, 0, 2576, 0, 336, 0, -48, 0, -112, 0, 0, 0, 0, 0, 0, 0, 0, 0, 0],
  [0, 0, 0, 0, 0, 0, 0, 0, 0, 0, 40, 0, 120, 0, 72, 0, -1640, 0, 6120],
  [1632, 0, -672, 0, 160, 0, 32, 0, -32, 0, 0, 0, 0, 0, 0, 0, 0, 0, 0],
  [0, 0, 0, 0, 0, 0, 0, 0, 0, 0, 14, 0, 18, 0, -82, 0, 178, 0, -306],
  [-36, 0, 28, 0, -20, 0, 12, 0, -4, 0, 0, 0, 0, 0, 0, 0, 0, 0, 0],
  [0, 0, 0, 0, 0, 0, 0, 0, 0, 0, 2, 0, -2, 0, 2, 0, -2, 0, 2]]

def pTable10 : List (List Int) := [
  [0, 0, 0, 0, 0, 0, 0, 0, 0, 0, 0, -2, 0, 2, 0, -2, 0, 2, 0, -2, 0],
  [0, 36, 0, -28, 0, 20, 0, -12, 0, 4, 0, 0, 0, 0, 0, 0, 0, 0, 0, 0, 0],
  [0, 0, 0, 0, 0, 0, 0, 0, 0, 0, 0, -16, 0, -16, 0, 80, 0, -176, 0, 304, 0],
  [0, -1596, 0, 644, 0, -140, 0, -44, 0, 36, 0, 0, 0, 0, 0, 0, 0, 0, 0, 0, 0],
  [0, 0, 0, 0, 0, 0, 0, 0, 0, 0, 0, -54, 0, -138, 0, 10, 0, 1462, 0, -5814, 0],
  [0, 15504, 0, -1904, 0, -496, 0, 16, 0, 144, 0, 0, 0, 0, 0, 0, 0, 0, 0, 0, 0],
  [0, 0, 0, 0, 0, 0, 0, 0, 0, 0, 0, -96, 0, -352, 0, -800, 0, -544, 0, 31008, 0],
  [0, -46512, 0, -2992, 0, 80, 0, 336, 0, 336, 0, 0, 0, 0, 0, 0, 0, 0, 0, 0, 0],
  [0, 0, 0, 0, 0, 0, 0, 0, 0, 0, 0, -84, 0, -364, 0, -1300, 0, -6188, 0, -50388, 0],
  [0, 33592, 0, 5304, 0, 1560, 0, 728, 0, 504, 0, 0, 0, 0, 0, 0, 0, 0, 0, 0, 0],
  [0, 0, 0, 0, 0, 0, 0, 0, 0, 0, -252, 0, -308, 0, -572, 0, -1716, 0, -9724, 0, -184756],
  [-335920, 0, -14144, 0, -1872, 0, -416, 0, -112, 0, 0, 0, 0, 0, 0, 0, 0, 0, 0, 0, 0],
  [0, 0, 0, 0, 0, 0, 0, 0, 0, 0, -420, 0, -476, 0, -676, 0, -988, 0, 2652, 0, 251940],
  [155040, 0, -6528, 0, -2208, 0, -704, 0, -224, 0, 0, 0, 0, 0, 0, 0, 0, 0, 0, 0, 0],
  [0, 0, 0, 0, 0, 0, 0, 0, 0, 0, -240, 0, -208, 0, 16, 0, 1328, 0, 8976, 0, -77520],
  [-31008, 0, 6528, 0, 32, 0, -320, 0, -160, 0, 0, 0, 0, 0, 0, 0, 0, 0, 0, 0, 0],
  [0, 0, 0, 0, 0, 0, 0, 0, 0, 0, -90, 0, -38, 0, 166, 0, 474, 0, -3162, 0, 9690],
  [2280, 0, -1056, 0, 344, 0, -16, 0, -56, 0, 0, 0, 0, 0, 0, 0, 0, 0, 0, 0, 0],
  [0, 0, 0, 0, 0, 0, 0, 0, 0, 0, -20, 0, 4, 0, 44, 0, -124, 0, 236, 0, -380],
  [-40, 0, 32, 0, -24, 0, 16, 0, -8, 0, 0, 0, 0, 0, 0, 0, 0, 0, 0, 0, 0],
  [0, 0, 0, 0, 0, 0, 0, 0, 0, 0, -2, 0, 2, 0, -2, 0, 2, 0, -2, 0, 2]]

def pTable11 : List (List Int) := [
  [0, 0, 0, 0, 0, 0, 0, 0, 0, 0, 0, 2, 0, -2, 0, 2, 0, -2, 0, 2, 0, -2, 0],
  [0, 40, 0, -32, 0, 24, 0, -16, 0, 8, 0, 0, 0, 0, 0, 0, 0, 0, 0, 0, 0, 0, 0],
  [0, 0, 0, 0, 0, 0, 0, 0, 0, 0, 0, 22, 0, -6, 0, -42, 0, 122, 0, -234, 0, 378, 0],
  [0, -2240, 0, 1024, 0, -320, 0, 0, 0, 64, 0, 0, 0, 0, 0, 0, 0, 0, 0, 0, 0, 0, 0],
  [0, 0, 0, 0, 0, 0, 0, 0, 0, 0, 0, 110, 0, 34, 0, -210, 0, -350, 0, 2926, 0, -9310, 0],
  [0, 28728, 0, -5472, 0, -376, 0, 336, 0, 216, 0, 0, 0, 0, 0, 0, 0, 0, 0, 0, 0, 0, 0],
  [0, 0, 0, 0, 0, 0, 0, 0, 0, 0, 0, 330, 0, 246, 0, -182, 0, -1802, 0, -5814, 0, 67830, 0],
  [0, -124032, 0, 0, 0, 2176, 0, 1024, 0, 384, 0, 0, 0, 0, 0, 0, 0, 0, 0, 0, 0, 0, 0],
  [0, 0, 0, 0, 0, 0, 0, 0, 0, 0, 0, 660, 0, 684, 0, 660, 0, -340, 0, -11628, 0, -174420, 0],
  [0, 180880, 0, 20672, 0, 4080, 0, 1120, 0, 336, 0, 0, 0, 0, 0, 0, 0, 0, 0, 0, 0, 0, 0],
  [0, 0, 0, 0, 0, 0, 0, 0, 0, 0, 0, 924, 0, 1092, 0, 1820, 0, 4420, 0, 16796, 0, 117572, 0],
  [705432, 0, 33592, 0, 5304, 0, 1560, 0, 728, 0, 504, 0, 0, 0, 0, 0, 0, 0, 0, 0, 0, 0, 0],
  [0, 0, 0, 0, 0, 0, 0, 0, 0, 0, 0, 0, -84, 0, -364, 0, -1300, 0, -6188, 0, -50388, 0, -1293292],
  [-994840, 0, -12920, 0, 2312, 0, 1640, 0, 1064, 0, 840, 0, 0, 0, 0, 0, 0, 0, 0, 0, 0, 0, 0],
  [0, 0, 0, 0, 0, 0, 0, 0, 0, 0, 0, 0, -180, 0, -716, 0, -2100, 0, -6732, 0, -19380, 0, 639540],
  [341088, 0, -31008, 0, -4896, 0, -416, 0, 352, 0, 480, 0, 0, 0, 0, 0, 0, 0, 0, 0, 0, 0, 0],
  [0, 0, 0, 0, 0, 0, 0, 0, 0, 0, 0, 0, -150, 0, -490, 0, -790, 0, 918, 0, 25194, 0, -149226],
  [-52668, 0, 13908, 0, -1260, 0, -636, 0, -28, 0, 180, 0, 0, 0, 0, 0, 0, 0, 0, 0, 0, 0, 0],
  [0, 0, 0, 0, 0, 0, 0, 0, 0, 0, 0, 0, -70, 0, -154, 0, 90, 0, 1286, 0, -5510, 0, 14630],
  [3080, 0, -1560, 0, 616, 0, -120, 0, -56, 0, 40, 0, 0, 0, 0, 0, 0, 0, 0, 0, 0, 0, 0],
  [0, 0, 0, 0, 0, 0, 0, 0, 0, 0, 0, 0, -18, 0, -14, 0, 78, 0, -174, 0, 302, 0, -462],
  [-44, 0, 36, 0, -28, 0, 20, 0, -12, 0, 4, 0, 0, 0, 0, 0, 0, 0, 0, 0, 0, 0, 0],
  [0, 0, 0, 0, 0, 0, 0, 0, 0, 0, 0, 0, -2, 0, 2, 0, -2, 0, 2, 0, -2, 0, 2]]

/-- All of them. -/
def pTables : List (List (List Int)) :=
  [pTable0, pTable1, pTable2, pTable3, pTable4, pTable5, pTable6, pTable7, pTable8, pTable9, pTable10, pTable11]

end E3nn
