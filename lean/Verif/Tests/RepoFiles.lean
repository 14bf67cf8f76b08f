import Verif.Model.MiniTs

/-! # The text of the tables in the repository: ts/chars.ts, ts/lex_state.gen.ts, ts/parse_state2.gen.ts -/

namespace Verif.Tests.RepoFiles
open Verif

/-- A line, as a list of characters. -/
local macro "line!" s:str : term => do
  let cs := (s.getString ++ "\n").toList.map fun c => Lean.Syntax.mkCharLit c
  `(([$(cs.toArray),*] : Verif.Str))

/-- A last line without end. -/
local macro "chars!" s:str : term => do
  let cs := s.getString.toList.map fun c => Lean.Syntax.mkCharLit c
  `(([$(cs.toArray),*] : Verif.Str))

/-- ts/chars.ts:1-749. -/
def charsText : List Str := [
  line! "export type Characters = {",
  line! "    0: \"\u0000\",",
  line! "",
  line! "    1: \"\u0001\",",
  line! "",
  line! "    2: \"\u0002\",",
  line! "",
  line! "    3: \"\u0003\",",
  line! "",
  line! "    4: \"\u0004\",",
  line! "",
  line! "    5: \"\u0005\",",
  line! "",
  line! "    6: \"\u0006\",",
  line! "",
  line! "    7: \"\u0007\",",
  line! "",
  line! "    8: \"\u0008\",",
  line! "",
  line! "    10: \"\\n\",",
  line! "",
  line! "    14: \"\u000e\",",
  line! "",
  line! "    15: \"\u000f\",",
  line! "",
  line! "    16: \"\u0010\",",
  line! "",
  line! "    17: \"\u0011\",",
  line! "",
  line! "    18: \"\u0012\",",
  line! "",
  line! "    19: \"\u0013\",",
  line! "",
  line! "    20: \"\u0014\",",
  line! "",
  line! "    21: \"\u0015\",",
  line! "",
  line! "    22: \"\u0016\",",
  line! "",
  line! "    23: \"\u0017\",",
  line! "",
  line! "    24: \"\u0018\",",
  line! "",
  line! "    25: \"\u0019\",",
  line! "",
  line! "    26: \"\u001a\",",
  line! "",
  line! "    27: \"\u001b\",",
  line! "",
  line! "    28: \"\u001c\",",
  line! "",
  line! "    29: \"\u001d\",",
  line! "",
  line! "    30: \"\u001e\",",
  line! "",
  line! "    31: \"\u001f\",",
  line! "",
  line! "    32: \" \",",
  line! "",
  line! "    33: \"!\",",
  line! "",
  line! "    34: \"\\\"\",",
  line! "",
  line! "    35: \"#\",",
  line! "",
  line! "    36: \"$\",",
  line! "",
  line! "    37: \"%\",",
  line! "",
  line! "    38: \"&\",",
  line! "",
  line! "    39: \"'\",",
  line! "",
  line! "    40: \"(\",",
  line! "",
  line! "    41: \")\",",
  line! "",
  line! "    42: \"*\",",
  line! "",
  line! "    43: \"+\",",
  line! "",
  line! "    44: \",\",",
  line! "",
  line! "    45: \"-\",",
  line! "",
  line! "    46: \".\",",
  line! "",
  line! "    47: \"/\",",
  line! "",
  line! "    48: \"0\",",
  line! "",
  line! "    49: \"1\",",
  line! "",
  line! "    50: \"2\",",
  line! "",
  line! "    51: \"3\",",
  line! "",
  line! "    52: \"4\",",
  line! "",
  line! "    53: \"5\",",
  line! "",
  line! "    54: \"6\",",
  line! "",
  line! "    55: \"7\",",
  line! "",
  line! "    56: \"8\",",
  line! "",
  line! "    57: \"9\",",
  line! "",
  line! "    58: \":\",",
  line! "",
  line! "    59: \";\",",
  line! "",
  line! "    60: \"<\",",
  line! "",
  line! "    61: \"=\",",
  line! "",
  line! "    62: \">\",",
  line! "",
  line! "    63: \"?\",",
  line! "",
  line! "    64: \"@\",",
  line! "",
  line! "    65: \"A\",",
  line! "",
  line! "    66: \"B\",",
  line! "",
  line! "    67: \"C\",",
  line! "",
  line! "    68: \"D\",",
  line! "",
  line! "    69: \"E\",",
  line! "",
  line! "    70: \"F\",",
  line! "",
  line! "    71: \"G\",",
  line! "",
  line! "    72: \"H\",",
  line! "",
  line! "    73: \"I\",",
  line! "",
  line! "    74: \"J\",",
  line! "",
  line! "    75: \"K\",",
  line! "",
  line! "    76: \"L\",",
  line! "",
  line! "    77: \"M\",",
  line! "",
  line! "    78: \"N\",",
  line! "",
  line! "    79: \"O\",",
  line! "",
  line! "    80: \"P\",",
  line! "",
  line! "    81: \"Q\",",
  line! "",
  line! "    82: \"R\",",
  line! "",
  line! "    83: \"S\",",
  line! "",
  line! "    84: \"T\",",
  line! "",
  line! "    85: \"U\",",
  line! "",
  line! "    86: \"V\",",
  line! "",
  line! "    87: \"W\",",
  line! "",
  line! "    88: \"X\",",
  line! "",
  line! "    89: \"Y\",",
  line! "",
  line! "    90: \"Z\",",
  line! "",
  line! "    91: \"[\",",
  line! "",
  line! "    92: \"\\\\\",",
  line! "",
  line! "    93: \"]\",",
  line! "",
  line! "    94: \"^\",",
  line! "",
  line! "    95: \"_\",",
  line! "",
  line! "    96: \"`\",",
  line! "",
  line! "    97: \"a\",",
  line! "",
  line! "    98: \"b\",",
  line! "",
  line! "    99: \"c\",",
  line! "",
  line! "    100: \"d\",",
  line! "",
  line! "    101: \"e\",",
  line! "",
  line! "    102: \"f\",",
  line! "",
  line! "    103: \"g\",",
  line! "",
  line! "    104: \"h\",",
  line! "",
  line! "    105: \"i\",",
  line! "",
  line! "    106: \"j\",",
  line! "",
  line! "    107: \"k\",",
  line! "",
  line! "    108: \"l\",",
  line! "",
  line! "    109: \"m\",",
  line! "",
  line! "    110: \"n\",",
  line! "",
  line! "    111: \"o\",",
  line! "",
  line! "    112: \"p\",",
  line! "",
  line! "    113: \"q\",",
  line! "",
  line! "    114: \"r\",",
  line! "",
  line! "    115: \"s\",",
  line! "",
  line! "    116: \"t\",",
  line! "",
  line! "    117: \"u\",",
  line! "",
  line! "    118: \"v\",",
  line! "",
  line! "    119: \"w\",",
  line! "",
  line! "    120: \"x\",",
  line! "",
  line! "    121: \"y\",",
  line! "",
  line! "    122: \"z\",",
  line! "",
  line! "    123: \"{\",",
  line! "",
  line! "    124: \"|\",",
  line! "",
  line! "    125: \"}\",",
  line! "",
  line! "    126: \"~\",",
  line! "",
  line! "    128: \"\u0080\",",
  line! "",
  line! "    129: \"\u0081\",",
  line! "",
  line! "    130: \"\u0082\",",
  line! "",
  line! "    131: \"\u0083\",",
  line! "",
  line! "    132: \"\u0084\",",
  line! "",
  line! "    133: \"\u0085\",",
  line! "",
  line! "    134: \"\u0086\",",
  line! "",
  line! "    135: \"\u0087\",",
  line! "",
  line! "    136: \"\u0088\",",
  line! "",
  line! "    137: \"\u0089\",",
  line! "",
  line! "    138: \"\u008a\",",
  line! "",
  line! "    139: \"\u008b\",",
  line! "",
  line! "    140: \"\u008c\",",
  line! "",
  line! "    141: \"\u008d\",",
  line! "",
  line! "    142: \"\u008e\",",
  line! "",
  line! "    143: \"\u008f\",",
  line! "",
  line! "    144: \"\u0090\",",
  line! "",
  line! "    145: \"\u0091\",",
  line! "",
  line! "    146: \"\u0092\",",
  line! "",
  line! "    147: \"\u0093\",",
  line! "",
  line! "    148: \"\u0094\",",
  line! "",
  line! "    149: \"\u0095\",",
  line! "",
  line! "    150: \"\u0096\",",
  line! "",
  line! "    151: \"\u0097\",",
  line! "",
  line! "    152: \"\u0098\",",
  line! "",
  line! "    153: \"\u0099\",",
  line! "",
  line! "    154: \"\u009a\",",
  line! "",
  line! "    155: \"\u009b\",",
  line! "",
  line! "    156: \"\u009c\",",
  line! "",
  line! "    157: \"\u009d\",",
  line! "",
  line! "    158: \"\u009e\",",
  line! "",
  line! "    159: \"\u009f\",",
  line! "",
  line! "    161: \"¡\",",
  line! "",
  line! "    162: \"¢\",",
  line! "",
  line! "    163: \"£\",",
  line! "",
  line! "    164: \"¤\",",
  line! "",
  line! "    165: \"¥\",",
  line! "",
  line! "    166: \"¦\",",
  line! "",
  line! "    167: \"§\",",
  line! "",
  line! "    168: \"¨\",",
  line! "",
  line! "    169: \"©\",",
  line! "",
  line! "    170: \"ª\",",
  line! "",
  line! "    171: \"«\",",
  line! "",
  line! "    172: \"¬\",",
  line! "",
  line! "    174: \"®\",",
  line! "",
  line! "    175: \"¯\",",
  line! "",
  line! "    176: \"°\",",
  line! "",
  line! "    177: \"±\",",
  line! "",
  line! "    178: \"²\",",
  line! "",
  line! "    179: \"³\",",
  line! "",
  line! "    180: \"´\",",
  line! "",
  line! "    181: \"µ\",",
  line! "",
  line! "    182: \"¶\",",
  line! "",
  line! "    183: \"·\",",
  line! "",
  line! "    184: \"¸\",",
  line! "",
  line! "    185: \"¹\",",
  line! "",
  line! "    186: \"º\",",
  line! "",
  line! "    187: \"»\",",
  line! "",
  line! "    188: \"¼\",",
  line! "",
  line! "    189: \"½\",",
  line! "",
  line! "    190: \"¾\",",
  line! "",
  line! "    191: \"¿\",",
  line! "",
  line! "    192: \"À\",",
  line! "",
  line! "    193: \"Á\",",
  line! "",
  line! "    194: \"Â\",",
  line! "",
  line! "    195: \"Ã\",",
  line! "",
  line! "    196: \"Ä\",",
  line! "",
  line! "    197: \"Å\",",
  line! "",
  line! "    198: \"Æ\",",
  line! "",
  line! "    199: \"Ç\",",
  line! "",
  line! "    200: \"È\",",
  line! "",
  line! "    201: \"É\",",
  line! "",
  line! "    202: \"Ê\",",
  line! "",
  line! "    203: \"Ë\",",
  line! "",
  line! "    204: \"Ì\",",
  line! "",
  line! "    205: \"Í\",",
  line! "",
  line! "    206: \"Î\",",
  line! "",
  line! "    207: \"Ï\",",
  line! "",
  line! "    208: \"Ð\",",
  line! "",
  line! "    209: \"Ñ\",",
  line! "",
  line! "    210: \"Ò\",",
  line! "",
  line! "    211: \"Ó\",",
  line! "",
  line! "    212: \"Ô\",",
  line! "",
  line! "    213: \"Õ\",",
  line! "",
  line! "    214: \"Ö\",",
  line! "",
  line! "    215: \"×\",",
  line! "",
  line! "    216: \"Ø\",",
  line! "",
  line! "    217: \"Ù\",",
  line! "",
  line! "    218: \"Ú\",",
  line! "",
  line! "    219: \"Û\",",
  line! "",
  line! "    220: \"Ü\",",
  line! "",
  line! "    221: \"Ý\",",
  line! "",
  line! "    222: \"Þ\",",
  line! "",
  line! "    223: \"ß\",",
  line! "",
  line! "    224: \"à\",",
  line! "",
  line! "    225: \"á\",",
  line! "",
  line! "    226: \"â\",",
  line! "",
  line! "    227: \"ã\",",
  line! "",
  line! "    228: \"ä\",",
  line! "",
  line! "    229: \"å\",",
  line! "",
  line! "    230: \"æ\",",
  line! "",
  line! "    231: \"ç\",",
  line! "",
  line! "    232: \"è\",",
  line! "",
  line! "    233: \"é\",",
  line! "",
  line! "    234: \"ê\",",
  line! "",
  line! "    235: \"ë\",",
  line! "",
  line! "    236: \"ì\",",
  line! "",
  line! "    237: \"í\",",
  line! "",
  line! "    238: \"î\",",
  line! "",
  line! "    239: \"ï\",",
  line! "",
  line! "    240: \"ð\",",
  line! "",
  line! "    241: \"ñ\",",
  line! "",
  line! "    242: \"ò\",",
  line! "",
  line! "    243: \"ó\",",
  line! "",
  line! "    244: \"ô\",",
  line! "",
  line! "    245: \"õ\",",
  line! "",
  line! "    246: \"ö\",",
  line! "",
  line! "    247: \"÷\",",
  line! "",
  line! "    248: \"ø\",",
  line! "",
  line! "    249: \"ù\",",
  line! "",
  line! "    250: \"ú\",",
  line! "",
  line! "    251: \"û\",",
  line! "",
  line! "    252: \"ü\",",
  line! "",
  line! "    253: \"ý\",",
  line! "",
  line! "    254: \"þ\",",
  line! "",
  line! "    255: \"ÿ\",",
  line! "}",
  line! " export type CharTable = {",
  line! "\"\u0000\": 0,",
  line! "\"\u0001\": 1,",
  line! "\"\u0002\": 2,",
  line! "\"\u0003\": 3,",
  line! "\"\u0004\": 4,",
  line! "\"\u0005\": 5,",
  line! "\"\u0006\": 6,",
  line! "\"\u0007\": 7,",
  line! "\"\u0008\": 8,",
  line! "\"\\n\": 10,",
  line! "\"\u000e\": 14,",
  line! "\"\u000f\": 15,",
  line! "\"\u0010\": 16,",
  line! "\"\u0011\": 17,",
  line! "\"\u0012\": 18,",
  line! "\"\u0013\": 19,",
  line! "\"\u0014\": 20,",
  line! "\"\u0015\": 21,",
  line! "\"\u0016\": 22,",
  line! "\"\u0017\": 23,",
  line! "\"\u0018\": 24,",
  line! "\"\u0019\": 25,",
  line! "\"\u001a\": 26,",
  line! "\"\u001b\": 27,",
  line! "\"\u001c\": 28,",
  line! "\"\u001d\": 29,",
  line! "\"\u001e\": 30,",
  line! "\"\u001f\": 31,",
  line! "\" \": 32,",
  line! "\"!\": 33,",
  line! "\"\\\"\": 34,",
  line! "\"#\": 35,",
  line! "\"$\": 36,",
  line! "\"%\": 37,",
  line! "\"&\": 38,",
  line! "\"'\": 39,",
  line! "\"(\": 40,",
  line! "\")\": 41,",
  line! "\"*\": 42,",
  line! "\"+\": 43,",
  line! "\",\": 44,",
  line! "\"-\": 45,",
  line! "\".\": 46,",
  line! "\"/\": 47,",
  line! "\"0\": 48,",
  line! "\"1\": 49,",
  line! "\"2\": 50,",
  line! "\"3\": 51,",
  line! "\"4\": 52,",
  line! "\"5\": 53,",
  line! "\"6\": 54,",
  line! "\"7\": 55,",
  line! "\"8\": 56,",
  line! "\"9\": 57,",
  line! "\":\": 58,",
  line! "\";\": 59,",
  line! "\"<\": 60,",
  line! "\"=\": 61,",
  line! "\">\": 62,",
  line! "\"?\": 63,",
  line! "\"@\": 64,",
  line! "\"A\": 65,",
  line! "\"B\": 66,",
  line! "\"C\": 67,",
  line! "\"D\": 68,",
  line! "\"E\": 69,",
  line! "\"F\": 70,",
  line! "\"G\": 71,",
  line! "\"H\": 72,",
  line! "\"I\": 73,",
  line! "\"J\": 74,",
  line! "\"K\": 75,",
  line! "\"L\": 76,",
  line! "\"M\": 77,",
  line! "\"N\": 78,",
  line! "\"O\": 79,",
  line! "\"P\": 80,",
  line! "\"Q\": 81,",
  line! "\"R\": 82,",
  line! "\"S\": 83,",
  line! "\"T\": 84,",
  line! "\"U\": 85,",
  line! "\"V\": 86,",
  line! "\"W\": 87,",
  line! "\"X\": 88,",
  line! "\"Y\": 89,",
  line! "\"Z\": 90,",
  line! "\"[\": 91,",
  line! "\"\\\\\": 92,",
  line! "\"]\": 93,",
  line! "\"^\": 94,",
  line! "\"_\": 95,",
  line! "\"`\": 96,",
  line! "\"a\": 97,",
  line! "\"b\": 98,",
  line! "\"c\": 99,",
  line! "\"d\": 100,",
  line! "\"e\": 101,",
  line! "\"f\": 102,",
  line! "\"g\": 103,",
  line! "\"h\": 104,",
  line! "\"i\": 105,",
  line! "\"j\": 106,",
  line! "\"k\": 107,",
  line! "\"l\": 108,",
  line! "\"m\": 109,",
  line! "\"n\": 110,",
  line! "\"o\": 111,",
  line! "\"p\": 112,",
  line! "\"q\": 113,",
  line! "\"r\": 114,",
  line! "\"s\": 115,",
  line! "\"t\": 116,",
  line! "\"u\": 117,",
  line! "\"v\": 118,",
  line! "\"w\": 119,",
  line! "\"x\": 120,",
  line! "\"y\": 121,",
  line! "\"z\": 122,",
  line! "\"{\": 123,",
  line! "\"|\": 124,",
  line! "\"}\": 125,",
  line! "\"~\": 126,",
  line! "\"\u0080\": 128,",
  line! "\"\u0081\": 129,",
  line! "\"\u0082\": 130,",
  line! "\"\u0083\": 131,",
  line! "\"\u0084\": 132,",
  line! "\"\u0085\": 133,",
  line! "\"\u0086\": 134,",
  line! "\"\u0087\": 135,",
  line! "\"\u0088\": 136,",
  line! "\"\u0089\": 137,",
  line! "\"\u008a\": 138,",
  line! "\"\u008b\": 139,",
  line! "\"\u008c\": 140,",
  line! "\"\u008d\": 141,",
  line! "\"\u008e\": 142,",
  line! "\"\u008f\": 143,",
  line! "\"\u0090\": 144,",
  line! "\"\u0091\": 145,",
  line! "\"\u0092\": 146,",
  line! "\"\u0093\": 147,",
  line! "\"\u0094\": 148,",
  line! "\"\u0095\": 149,",
  line! "\"\u0096\": 150,",
  line! "\"\u0097\": 151,",
  line! "\"\u0098\": 152,",
  line! "\"\u0099\": 153,",
  line! "\"\u009a\": 154,",
  line! "\"\u009b\": 155,",
  line! "\"\u009c\": 156,",
  line! "\"\u009d\": 157,",
  line! "\"\u009e\": 158,",
  line! "\"\u009f\": 159,",
  line! "\"¡\": 161,",
  line! "\"¢\": 162,",
  line! "\"£\": 163,",
  line! "\"¤\": 164,",
  line! "\"¥\": 165,",
  line! "\"¦\": 166,",
  line! "\"§\": 167,",
  line! "\"¨\": 168,",
  line! "\"©\": 169,",
  line! "\"ª\": 170,",
  line! "\"«\": 171,",
  line! "\"¬\": 172,",
  line! "\"®\": 174,",
  line! "\"¯\": 175,",
  line! "\"°\": 176,",
  line! "\"±\": 177,",
  line! "\"²\": 178,",
  line! "\"³\": 179,",
  line! "\"´\": 180,",
  line! "\"µ\": 181,",
  line! "\"¶\": 182,",
  line! "\"·\": 183,",
  line! "\"¸\": 184,",
  line! "\"¹\": 185,",
  line! "\"º\": 186,",
  line! "\"»\": 187,",
  line! "\"¼\": 188,",
  line! "\"½\": 189,",
  line! "\"¾\": 190,",
  line! "\"¿\": 191,",
  line! "\"À\": 192,",
  line! "\"Á\": 193,",
  line! "\"Â\": 194,",
  line! "\"Ã\": 195,",
  line! "\"Ä\": 196,",
  line! "\"Å\": 197,",
  line! "\"Æ\": 198,",
  line! "\"Ç\": 199,",
  line! "\"È\": 200,",
  line! "\"É\": 201,",
  line! "\"Ê\": 202,",
  line! "\"Ë\": 203,",
  line! "\"Ì\": 204,",
  line! "\"Í\": 205,",
  line! "\"Î\": 206,",
  line! "\"Ï\": 207,",
  line! "\"Ð\": 208,",
  line! "\"Ñ\": 209,",
  line! "\"Ò\": 210,",
  line! "\"Ó\": 211,",
  line! "\"Ô\": 212,",
  line! "\"Õ\": 213,",
  line! "\"Ö\": 214,",
  line! "\"×\": 215,",
  line! "\"Ø\": 216,",
  line! "\"Ù\": 217,",
  line! "\"Ú\": 218,",
  line! "\"Û\": 219,",
  line! "\"Ü\": 220,",
  line! "\"Ý\": 221,",
  line! "\"Þ\": 222,",
  line! "\"ß\": 223,",
  line! "\"à\": 224,",
  line! "\"á\": 225,",
  line! "\"â\": 226,",
  line! "\"ã\": 227,",
  line! "\"ä\": 228,",
  line! "\"å\": 229,",
  line! "\"æ\": 230,",
  line! "\"ç\": 231,",
  line! "\"è\": 232,",
  line! "\"é\": 233,",
  line! "\"ê\": 234,",
  line! "\"ë\": 235,",
  line! "\"ì\": 236,",
  line! "\"í\": 237,",
  line! "\"î\": 238,",
  line! "\"ï\": 239,",
  line! "\"ð\": 240,",
  line! "\"ñ\": 241,",
  line! "\"ò\": 242,",
  line! "\"ó\": 243,",
  line! "\"ô\": 244,",
  line! "\"õ\": 245,",
  line! "\"ö\": 246,",
  line! "\"÷\": 247,",
  line! "\"ø\": 248,",
  line! "\"ù\": 249,",
  line! "\"ú\": 250,",
  line! "\"û\": 251,",
  line! "\"ü\": 252,",
  line! "\"ý\": 253,",
  line! "\"þ\": 254,",
  chars! "\"ÿ\": 255,}"]

/-- ts/lex_state.gen.ts:1-95. -/
def stateText : List Str := [
  line! "/**",
  line! "            * These are generated DFA states for the lexer.",
  line! "            * Don't edit this file.",
  line! "            */",
  line! "            ",
  line! "            type TokenDef2 = {",
  line! "                    kind: \"(\",",
  line! "                    hasValue: true",
  line! "                }",
  line! "                ",
  line! "                type TokenDef5 = {",
  line! "                    kind: \")\",",
  line! "                    hasValue: true",
  line! "                }",
  line! "                ",
  line! "                type TokenDef8 = {",
  line! "                    kind: \"add\",",
  line! "                    hasValue: true",
  line! "                }",
  line! "                ",
  line! "                type TokenDef13 = {",
  line! "                    kind: \"[1-9]+[0-9]*\",",
  line! "                    hasValue: true",
  line! "                }",
  line! "                ",
  line! "                export type Tokens = {",
  line! "  2: TokenDef2;  5: TokenDef5;  8: TokenDef8;  13: TokenDef13;",
  line! "}",
  line! "",
  line! "type State0 = {",
  line! "                    to: [1,2,3,4],",
  line! "                    labels: [{ from: 40, to: 41 },{ from: 41, to: 42 },{ from: 49, to: 58 },{ from: 97, to: 98 }],",
  line! "                    accepting: false",
  line! "                }",
  line! "                ",
  line! "                type State1 = {",
  line! "                    to: [],",
  line! "                    labels: [],",
  line! "                    accepting: true",
  line! "                }",
  line! "                ",
  line! "                type State2 = {",
  line! "                    to: [],",
  line! "                    labels: [],",
  line! "                    accepting: true",
  line! "                }",
  line! "                ",
  line! "                type State3 = {",
  line! "                    to: [5,6],",
  line! "                    labels: [{ from: 48, to: 49 },{ from: 49, to: 58 }],",
  line! "                    accepting: true",
  line! "                }",
  line! "                ",
  line! "                type State4 = {",
  line! "                    to: [7],",
  line! "                    labels: [{ from: 100, to: 101 }],",
  line! "                    accepting: false",
  line! "                }",
  line! "                ",
  line! "                type State5 = {",
  line! "                    to: [5,5],",
  line! "                    labels: [{ from: 48, to: 49 },{ from: 49, to: 58 }],",
  line! "                    accepting: true",
  line! "                }",
  line! "                ",
  line! "                type State6 = {",
  line! "                    to: [5,6],",
  line! "                    labels: [{ from: 48, to: 49 },{ from: 49, to: 58 }],",
  line! "                    accepting: true",
  line! "                }",
  line! "                ",
  line! "                type State7 = {",
  line! "                    to: [8],",
  line! "                    labels: [{ from: 100, to: 101 }],",
  line! "                    accepting: false",
  line! "                }",
  line! "                ",
  line! "                type State8 = {",
  line! "                    to: [],",
  line! "                    labels: [],",
  line! "                    accepting: true",
  line! "                }",
  line! "                ",
  line! "                export type States = [State0, State1, State2, State3, State4, State5, State6, State7, State8];",
  line! "",
  line! "export type DFAtoNFA = {",
  line! "  1: [ 2 ],",
  line! "2: [ 5 ],",
  line! "3: [ 13, 16, 17, 18, 19, 20, 21, 22 ],",
  line! "4: [ 10 ],",
  line! "5: [ 13, 14, 15, 16, 17 ],",
  line! "6: [ 13, 14, 15, 16, 17, 18, 19, 20, 21, 22 ],",
  line! "7: [ 9 ],",
  line! "8: [ 8 ],",
  chars! "}"]

/-- ts/parse_state2.gen.ts:1-218. -/
def genText : List Str := [
  line! "export declare module type_defs {",
  line! "  export type Symbol =",
  line! "    | { kind: \"token\"; token: L.Token }",
  line! "    | { kind: \"SExpr\"; value: actions.SExpr }",
  line! "    | { kind: \"Exprs\"; value: actions.Exprs }",
  line! "    | { kind: \"Expr\"; value: actions.Expr };",
  line! "",
  line! "  export type Token =",
  line! "    | { kind: \"strlit\"; value: string }",
  line! "    | { kind: \"nonterminal\"; value: string }",
  line! "    | { kind: \"regex\"; value: string }",
  line! "    | { kind: \"eof\" };",
  line! "",
  line! "  export type Tokens = {",
  line! "    0: { kind: \"eof\" };",
  line! "    1: { kind: \"strlit\"; value: \"(\" };",
  line! "    2: { kind: \"strlit\"; value: \")\" };",
  line! "    3: { kind: \"strlit\"; value: \"add\" };",
  line! "    4: { kind: \"nonterminal\"; value: \"Expr\" };",
  line! "    5: { kind: \"nonterminal\"; value: \"Exprs\" };",
  line! "    6: { kind: \"nonterminal\"; value: \"SExpr\" };",
  line! "    7: { kind: \"regex\"; value: \"[1-9]+[0-9]*\" };",
  line! "  };",
  line! "",
  line! "  export type Production = {",
  line! "    name: string;",
  line! "    tokens: Array<keyof Tokens>;",
  line! "  };",
  line! "",
  line! "  export type Productions = {",
  line! "    0: { name: \"SExpr'\"; tokens: [6] };",
  line! "    1: { name: \"SExpr\"; tokens: [1, 5, 2] };",
  line! "    2: { name: \"Exprs\"; tokens: [4, 5] };",
  line! "    3: { name: \"Exprs\"; tokens: [4] };",
  line! "    4: { name: \"Expr\"; tokens: [6] };",
  line! "    5: { name: \"Expr\"; tokens: [3] };",
  line! "    6: { name: \"Expr\"; tokens: [7] };",
  line! "  };",
  line! "",
  line! "  export type Action = {",
  line! "    0: { 1: { shift: 2 } };",
  line! "    1: { 0: { accept: true } };",
  line! "    2: { 1: { shift: 2 }; 3: { shift: 7 }; 7: { shift: 3 } };",
  line! "    3: {",
  line! "      1: { reduce: 6 };",
  line! "      2: { reduce: 6 };",
  line! "      3: { reduce: 6 };",
  line! "      7: { reduce: 6 };",
  line! "    };",
  line! "    4: {",
  line! "      1: { reduce: 4 };",
  line! "      2: { reduce: 4 };",
  line! "      3: { reduce: 4 };",
  line! "      7: { reduce: 4 };",
  line! "    };",
  line! "    5: { 2: { shift: 9 } };",
  line! "    6: { 1: { shift: 2 }; 2: { reduce: 3 }; 3: { shift: 7 }; 7: { shift: 3 } };",
  line! "    7: {",
  line! "      1: { reduce: 5 };",
  line! "      2: { reduce: 5 };",
  line! "      3: { reduce: 5 };",
  line! "      7: { reduce: 5 };",
  line! "    };",
  line! "    8: { 2: { reduce: 2 } };",
  line! "    9: {",
  line! "      0: { reduce: 1 };",
  line! "      1: { reduce: 1 };",
  line! "      2: { reduce: 1 };",
  line! "      3: { reduce: 1 };",
  line! "      7: { reduce: 1 };",
  line! "    };",
  line! "  };",
  line! "  export type Goto = {",
  line! "    0: {",
  line! "      SExpr: 1;",
  line! "    };",
  line! "    2: {",
  line! "      Expr: 6;",
  line! "",
  line! "      Exprs: 5;",
  line! "",
  line! "      SExpr: 4;",
  line! "    };",
  line! "    6: {",
  line! "      Expr: 6;",
  line! "",
  line! "      Exprs: 8;",
  line! "",
  line! "      SExpr: 4;",
  line! "    };",
  line! "  };",
  line! "  export type TokenKindToIdx = {",
  line! "    EOF: 0;",
  line! "    \"(\": 1;",
  line! "    \")\": 2;",
  line! "    add: 3;",
  line! "    \"[1-9]+[0-9]*\": 7;",
  line! "  };",
  line! "}",
  line! "import * as U from \"./util\";",
  line! "import * as L from \"./lex\";",
  line! "",
  line! "export declare module actions {",
  line! "  type Expr =",
  line! "    | { kind: \"symbol\"; value: \"add\" }",
  line! "    | { kind: \"int\"; value: string }",
  line! "    | { kind: \"sexpr\"; sexpr: SExpr };",
  line! "  type Exprs = Expr[];",
  line! "  type SExpr = { kind: \"SExpr\"; exprs: Exprs };",
  line! "",
  line! "  type EmitProduction<",
  line! "    prodIdx extends number,",
  line! "    symbolStack extends type_defs.Symbol[]",
  line! "  > = prodIdx extends 1",
  line! "    ? actions.Action1<symbolStack>",
  line! "    : prodIdx extends 2",
  line! "    ? actions.Action2<symbolStack>",
  line! "    : prodIdx extends 3",
  line! "    ? actions.Action3<symbolStack>",
  line! "    : prodIdx extends 4",
  line! "    ? actions.Action4<symbolStack>",
  line! "    : prodIdx extends 5",
  line! "    ? actions.Action5<symbolStack>",
  line! "    : prodIdx extends 6",
  line! "    ? actions.Action6<symbolStack>",
  line! "    : `error: invalid production idx: ${prodIdx}`;",
  line! "",
  line! "  type Action1<symbolStack extends type_defs.Symbol[]> = U.PopNStackWithValue<",
  line! "    symbolStack,",
  line! "    3",
  line! "  > extends [infer newStack, infer poppedValues]",
  line! "    ? poppedValues extends [infer var0, infer __exprs, infer var1]",
  line! "      ? newStack extends type_defs.Symbol[]",
  line! "        ? __exprs extends { kind: \"Exprs\"; value: infer exprs extends Exprs }",
  line! "          ? [",
  line! "              { kind: \"SExpr\"; value: { kind: \"SExpr\"; exprs: exprs } },",
  line! "              ...newStack",
  line! "            ]",
  line! "          : \"error: invalid symbol (pos `2`, Action1)\"",
  line! "        : `unreachable: \\`newStack\\` should always be a type_defs.Symbol[] (Action1)`",
  line! "      : `error: popping off symbol Stack Action1`",
  line! "    : \"unreachable: inferring popped values never fails\";",
  line! "  type Action2<symbolStack extends type_defs.Symbol[]> = U.PopNStackWithValue<",
  line! "    symbolStack,",
  line! "    2",
  line! "  > extends [infer newStack, infer poppedValues]",
  line! "    ? poppedValues extends [infer __eee, infer __es]",
  line! "      ? newStack extends type_defs.Symbol[]",
  line! "        ? __eee extends { kind: \"Expr\"; value: infer eee extends Expr }",
  line! "          ? __es extends { kind: \"Exprs\"; value: infer es extends Exprs }",
  line! "            ? [{ kind: \"Exprs\"; value: [eee, ...es] }, ...newStack]",
  line! "            : \"error: invalid symbol (pos `1`, Action2)\"",
  line! "          : \"error: invalid symbol (pos `2`, Action2)\"",
  line! "        : `unreachable: \\`newStack\\` should always be a type_defs.Symbol[] (Action2)`",
  line! "      : `error: popping off symbol Stack Action2`",
  line! "    : \"unreachable: inferring popped values never fails\";",
  line! "  type Action3<symbolStack extends type_defs.Symbol[]> = U.PopNStackWithValue<",
  line! "    symbolStack,",
  line! "    1",
  line! "  > extends [infer newStack, infer poppedValues]",
  line! "    ? poppedValues extends [infer __eee]",
  line! "      ? newStack extends type_defs.Symbol[]",
  line! "        ? __eee extends { kind: \"Expr\"; value: infer eee extends Expr }",
  line! "          ? [{ kind: \"Exprs\"; value: [eee] }, ...newStack]",
  line! "          : \"error: invalid symbol (pos `1`, Action3)\"",
  line! "        : `unreachable: \\`newStack\\` should always be a type_defs.Symbol[] (Action3)`",
  line! "      : `error: popping off symbol Stack Action3`",
  line! "    : \"unreachable: inferring popped values never fails\";",
  line! "  type Action4<symbolStack extends type_defs.Symbol[]> = U.PopNStackWithValue<",
  line! "    symbolStack,",
  line! "    1",
  line! "  > extends [infer newStack, infer poppedValues]",
  line! "    ? poppedValues extends [infer __sexpr]",
  line! "      ? newStack extends type_defs.Symbol[]",
  line! "        ? __sexpr extends { kind: \"SExpr\"; value: infer sexpr extends SExpr }",
  line! "          ? [",
  line! "              { kind: \"Expr\"; value: { kind: \"sexpr\"; sexpr: sexpr } },",
  line! "              ...newStack",
  line! "            ]",
  line! "          : \"error: invalid symbol (pos `1`, Action4)\"",
  line! "        : `unreachable: \\`newStack\\` should always be a type_defs.Symbol[] (Action4)`",
  line! "      : `error: popping off symbol Stack Action4`",
  line! "    : \"unreachable: inferring popped values never fails\";",
  line! "  type Action5<symbolStack extends type_defs.Symbol[]> = U.PopNStackWithValue<",
  line! "    symbolStack,",
  line! "    1",
  line! "  > extends [infer newStack, infer poppedValues]",
  line! "    ? poppedValues extends [infer __str]",
  line! "      ? newStack extends type_defs.Symbol[]",
  line! "        ? __str extends { kind: \"token\"; token: L.Token }",
  line! "          ? __str[\"token\"][\"value\"] extends infer str extends \"add\"",
  line! "            ? [",
  line! "                { kind: \"Expr\"; value: { kind: \"symbol\"; value: str } },",
  line! "                ...newStack",
  line! "              ]",
  line! "            : `error: not a token (pos \\`1\\`, Action5)`",
  line! "          : `error: invalid symbol (pos \\`1\\`, Action5)`",
  line! "        : `unreachable: \\`newStack\\` should always be a type_defs.Symbol[] (Action5)`",
  line! "      : `error: popping off symbol Stack Action5`",
  line! "    : \"unreachable: inferring popped values never fails\";",
  line! "  type Action6<symbolStack extends type_defs.Symbol[]> = U.PopNStackWithValue<",
  line! "    symbolStack,",
  line! "    1",
  line! "  > extends [infer newStack, infer poppedValues]",
  line! "    ? poppedValues extends [infer __int]",
  line! "      ? newStack extends type_defs.Symbol[]",
  line! "        ? __int extends { kind: \"token\"; token: L.Token }",
  line! "          ? __int[\"token\"][\"value\"] extends infer int extends string",
  line! "            ? [",
  line! "                { kind: \"Expr\"; value: { kind: \"int\"; value: int } },",
  line! "                ...newStack",
  line! "              ]",
  line! "            : `error: not a token (pos \\`1\\`, Action6)`",
  line! "          : `error: invalid symbol (pos \\`1\\`, Action6)`",
  line! "        : `unreachable: \\`newStack\\` should always be a type_defs.Symbol[] (Action6)`",
  line! "      : `error: popping off symbol Stack Action6`",
  line! "    : \"unreachable: inferring popped values never fails\";",
  line! "}"]

end Verif.Tests.RepoFiles
