import Verif.Proofs.LalrCert
/-
Generated: a certificate for the grammar of schema files (see Proofs/LalrCert.lean).  The names of its symbols, its productions on numbers,
the sets of item sets, FIRST and FOLLOW.  Nothing here is trusted: `Cert.check` decides.
-/
namespace LogSurgeon

def certNames : List String := ["$end", "$UncaughtString", "int", "float", "hex", "firstTimestamp", "newLineTimestamp", "newLine", "Lparen", "Rparen",
 "Star", "Plus", "Dash", "Dot", "Lbracket", "Rbracket", "Backslash", "Hat", "Lbrace", "Rbrace", "Vbar", "Langle",
 "Rangle", "QuestionMark", "Tab", "NewLine", "VerticalTab", "FormFeed", "CarriageReturn", "Space", "Bang", "Quotation",
 "Hash", "DollarSign", "Percent", "Ampersand", "Apostrophe", "Comma", "ForwardSlash", "Numeric", "Colon", "SemiColon",
 "Equal", "At", "AlphaNumeric", "Underscore", "Backtick", "Tilde", "d", "s", "n", "r", "t", "f", "v", "Delimiters",
 "CommentCharacters", "Schema", "Comment", "$START_PRIME", "SchemaVar", "DelimiterString", "PortableNewLine", "Literal",
 "Text", "WhitespaceStar", "Identifier", "Regex", "Concat", "Or", "MatchStar", "MatchPlus", "MatchExact", "MatchRange",
 "CompleteGroup", "Integer", "IncompleteGroup", "Digit", "Wildcard", "WhiteSpace", "LiteralRange"]

def certProds : List (Nat × List Nat) := [(59, [57]),
 (57, [58]),
 (57, [60]),
 (57, [55, 40, 61]),
 (57, [57, 62]),
 (57, [57, 62, 58]),
 (57, [57, 62, 60]),
 (57, [57, 62, 55, 40, 61]),
 (61, [61, 63]),
 (61, [63]),
 (62, [28, 25]),
 (62, [25]),
 (58, [38, 38, 64]),
 (64, [64, 56]),
 (64, [56]),
 (64, [64, 55]),
 (64, [55]),
 (60, [65, 66, 40, 67]),
 (66, [66, 44]),
 (66, [44]),
 (65, [65, 29]),
 (65, []),
 (67, [68]),
 (68, [68, 69]),
 (68, [69]),
 (69, [69, 20, 63]),
 (69, [70]),
 (69, [71]),
 (69, [72]),
 (69, [73]),
 (69, [74]),
 (70, [74, 10]),
 (71, [74, 11]),
 (72, [74, 18, 75, 19]),
 (73, [74, 18, 75, 37, 75, 19]),
 (74, [76, 15]),
 (74, [63]),
 (74, [77]),
 (74, [78]),
 (74, [79]),
 (76, [76, 80]),
 (76, [76, 77]),
 (76, [76, 63]),
 (76, [76, 79]),
 (76, [14, 80]),
 (76, [14, 77]),
 (76, [14, 63]),
 (76, [14, 79]),
 (76, [14, 17]),
 (80, [63, 12, 63]),
 (63, [16, 52]),
 (63, [16, 50]),
 (63, [16, 54]),
 (63, [16, 53]),
 (63, [16, 51]),
 (63, [29]),
 (63, [30]),
 (63, [31]),
 (63, [32]),
 (63, [33]),
 (63, [34]),
 (63, [35]),
 (63, [36]),
 (63, [16, 8]),
 (63, [16, 9]),
 (63, [16, 10]),
 (63, [16, 11]),
 (63, [37]),
 (63, [16, 12]),
 (63, [16, 13]),
 (63, [38]),
 (63, [44]),
 (63, [40]),
 (63, [41]),
 (63, [42]),
 (63, [43]),
 (63, [16, 14]),
 (63, [16, 16]),
 (63, [16, 15]),
 (63, [16, 17]),
 (63, [45]),
 (63, [46]),
 (63, [16, 18]),
 (63, [16, 20]),
 (63, [16, 19]),
 (63, [16, 21]),
 (63, [16, 22]),
 (63, [16, 23]),
 (63, [47]),
 (63, [8, 23, 21, 66, 22, 67, 9]),
 (63, [8, 67, 9]),
 (75, [75, 39]),
 (75, [39]),
 (77, [16, 48]),
 (78, [13]),
 (79, [16, 49])]

def certStarts : List (List Nat) := [[],
 [],
 [],
 [],
 [],
 [],
 [],
 [],
 [],
 [],
 [],
 [],
 [],
 [],
 [],
 [],
 [],
 [],
 [],
 [],
 [],
 [],
 [],
 [],
 [],
 [],
 [],
 [],
 [],
 [],
 [],
 [],
 [],
 [],
 [],
 [],
 [],
 [],
 [],
 [],
 [],
 [],
 [],
 [],
 [],
 [],
 [],
 [],
 [],
 [],
 [],
 [],
 [],
 [],
 [],
 [],
 [],
 [1, 2, 3, 4, 5, 6, 7],
 [12],
 [0],
 [17],
 [8, 9],
 [10, 11],
 [50, 51, 52, 53, 54, 55, 56, 57, 58, 59, 60, 61, 62, 63, 64, 65, 66, 67, 68, 69, 70, 71, 72, 73, 74, 75, 76, 77, 78,
  79, 80, 81, 82, 83, 84, 85, 86, 87, 88, 89, 90],
 [13, 14, 15, 16],
 [20, 21],
 [18, 19],
 [22],
 [23, 24],
 [25, 26, 27, 28, 29, 30],
 [31],
 [32],
 [33],
 [34],
 [35, 36, 37, 38, 39],
 [91, 92],
 [40, 41, 42, 43, 44, 45, 46, 47, 48],
 [93],
 [94],
 [95],
 [49]]

def certFirst : List Nat := [1, 2, 4, 8, 16, 32, 64, 128, 256, 512, 1024, 2048, 4096, 8192, 16384, 32768, 65536, 131072, 262144, 524288, 1048576,
 2097152, 4194304, 8388608, 16777216, 33554432, 67108864, 134217728, 268435456, 536870912, 1073741824, 2147483648,
 4294967296, 8589934592, 17179869184, 34359738368, 68719476736, 137438953472, 274877906944, 549755813888, 1099511627776,
 2199023255552, 4398046511104, 8796093022208, 17592186044416, 35184372088832, 70368744177664, 140737488355328,
 281474976710656, 562949953421312, 1125899906842624, 2251799813685248, 4503599627370496, 9007199254740992,
 18014398509481984, 36028797018963968, 72057594037927936, 36046664619786240, 274877906944, 36046664619786240,
 17592722915328, 280924684091648, 301989888, 280924684091648, 108086391056891904, 536870912, 17592186044416,
 280924684116224, 280924684116224, 280924684116224, 280924684116224, 280924684116224, 280924684116224, 280924684116224,
 280924684116224, 549755813888, 16384, 65536, 8192, 65536, 280924684091648]

def certFollow : List Nat := [0, 0, 0, 0, 0, 0, 0, 0, 0, 0, 0, 0, 0, 0, 0, 0, 0, 0, 0, 0, 0, 0, 0, 0, 0, 0, 0, 0, 0, 0, 0, 0, 0, 0, 0, 0, 0, 0, 0, 0,
 0, 0, 0, 0, 0, 0, 0, 0, 0, 0, 0, 0, 0, 0, 0, 0, 0, 301989889, 301989889, 1, 301989889, 280924986081537,
 36046664921776129, 280924987457281, 108086391358881793, 17592722915328, 18691701866496, 301990401, 280924986106625,
 280924987155201, 280924987155201, 280924987155201, 280924987155201, 280924987155201, 280924987420417, 687195291648,
 280924684124416, 280924987453185, 280924987420417, 280924987453185, 280924684124416]

def certBeside : List Nat := [0, 0, 0, 0, 0, 0, 0, 0, 72057594037927936, 72057594037927936, 72057594037927936, 72057594037927936, 72057594037927936,
 72057594037927936, 72057594037927936, 72057594037927936, 72057594037927936, 72057594037927936, 72057594037927936,
 72057594037927936, 72057594037927936, 72057594037927936, 72057594037927936, 72057594037927936, 72057594037927936, 0,
 72057594037927936, 72057594037927936, 0, 72057594037927936, 72057594037927936, 72057594037927936, 72057594037927936,
 72057594037927936, 72057594037927936, 72057594037927936, 72057594037927936, 72057594037927936, 72057594037927936,
 72075186223972352, 72057594037927936, 72057594037927936, 72057594037927936, 72057594037927936, 107805465835995136,
 72057594037927936, 72057594037927936, 72057594037927936, 72075186223972352, 72075186223972352, 72075186223972352,
 72075186223972352, 72075186223972352, 72075186223972352, 72075186223972352, 0, 36028796716973824, 0, 0, 0, 0, 0, 0, 0,
 0, 0, 0, 0, 0, 0, 0, 0, 0, 0, 0, 0, 0, 0, 0, 0, 0]

def certStates : List (List (Nat × Nat) × List (Nat × Nat)) := [([(1, 0), (0, 0), (2, 0), (3, 0), (4, 0), (5, 0), (6, 0), (7, 0), (12, 0), (17, 0), (20, 0), (21, 0)],
  [(65, 6), (60, 5), (58, 4), (57, 3), (55, 2), (38, 1)]),
 ([(12, 1)], [(38, 117)]),
 ([(3, 1)], [(40, 115)]),
 ([(0, 1), (4, 1), (5, 1), (6, 1), (7, 1), (10, 0), (11, 0)], [(62, 106), (28, 105), (25, 104)]),
 ([(1, 1)], []),
 ([(2, 1)], []),
 ([(17, 1), (18, 0), (19, 0), (20, 1)], [(66, 9), (44, 8), (29, 7)]),
 ([(20, 2)], []),
 ([(19, 1)], []),
 ([(17, 2), (18, 1)], [(44, 11), (40, 10)]),
 ([(17, 3),
   (22, 0),
   (23, 0),
   (24, 0),
   (25, 0),
   (26, 0),
   (27, 0),
   (28, 0),
   (29, 0),
   (30, 0),
   (31, 0),
   (32, 0),
   (33, 0),
   (34, 0),
   (35, 0),
   (36, 0),
   (37, 0),
   (38, 0),
   (39, 0),
   (40, 0),
   (41, 0),
   (42, 0),
   (43, 0),
   (44, 0),
   (45, 0),
   (46, 0),
   (47, 0),
   (48, 0),
   (50, 0),
   (51, 0),
   (52, 0),
   (53, 0),
   (54, 0),
   (55, 0),
   (56, 0),
   (57, 0),
   (58, 0),
   (59, 0),
   (60, 0),
   (61, 0),
   (62, 0),
   (63, 0),
   (64, 0),
   (65, 0),
   (66, 0),
   (67, 0),
   (68, 0),
   (69, 0),
   (70, 0),
   (71, 0),
   (72, 0),
   (73, 0),
   (74, 0),
   (75, 0),
   (76, 0),
   (77, 0),
   (78, 0),
   (79, 0),
   (80, 0),
   (81, 0),
   (82, 0),
   (83, 0),
   (84, 0),
   (85, 0),
   (86, 0),
   (87, 0),
   (88, 0),
   (89, 0),
   (90, 0),
   (93, 0),
   (94, 0),
   (95, 0)],
  [(79, 46),
   (78, 45),
   (77, 44),
   (63, 43),
   (76, 42),
   (74, 41),
   (73, 40),
   (72, 39),
   (71, 38),
   (70, 37),
   (69, 36),
   (68, 35),
   (67, 34),
   (47, 33),
   (46, 32),
   (45, 31),
   (44, 30),
   (43, 29),
   (42, 28),
   (41, 27),
   (40, 26),
   (38, 25),
   (37, 24),
   (36, 23),
   (35, 22),
   (34, 21),
   (33, 20),
   (32, 19),
   (31, 18),
   (30, 17),
   (29, 16),
   (16, 15),
   (14, 14),
   (13, 13),
   (8, 12)]),
 ([(18, 2)], []),
 ([(22, 0),
   (23, 0),
   (24, 0),
   (25, 0),
   (26, 0),
   (27, 0),
   (28, 0),
   (29, 0),
   (30, 0),
   (31, 0),
   (32, 0),
   (33, 0),
   (34, 0),
   (35, 0),
   (36, 0),
   (37, 0),
   (38, 0),
   (39, 0),
   (40, 0),
   (41, 0),
   (42, 0),
   (43, 0),
   (44, 0),
   (45, 0),
   (46, 0),
   (47, 0),
   (48, 0),
   (50, 0),
   (51, 0),
   (52, 0),
   (53, 0),
   (54, 0),
   (55, 0),
   (56, 0),
   (57, 0),
   (58, 0),
   (59, 0),
   (60, 0),
   (61, 0),
   (62, 0),
   (63, 0),
   (64, 0),
   (65, 0),
   (66, 0),
   (67, 0),
   (68, 0),
   (69, 0),
   (70, 0),
   (71, 0),
   (72, 0),
   (73, 0),
   (74, 0),
   (75, 0),
   (76, 0),
   (77, 0),
   (78, 0),
   (79, 0),
   (80, 0),
   (81, 0),
   (82, 0),
   (83, 0),
   (84, 0),
   (85, 0),
   (86, 0),
   (87, 0),
   (88, 0),
   (89, 0),
   (89, 1),
   (90, 0),
   (90, 1),
   (93, 0),
   (94, 0),
   (95, 0)],
  [(79, 46),
   (78, 45),
   (77, 44),
   (63, 43),
   (76, 42),
   (74, 41),
   (73, 40),
   (72, 39),
   (71, 38),
   (70, 37),
   (69, 36),
   (68, 35),
   (67, 97),
   (47, 33),
   (46, 32),
   (45, 31),
   (44, 30),
   (43, 29),
   (42, 28),
   (41, 27),
   (40, 26),
   (38, 25),
   (37, 24),
   (36, 23),
   (35, 22),
   (34, 21),
   (33, 20),
   (32, 19),
   (31, 18),
   (30, 17),
   (29, 16),
   (23, 96),
   (16, 15),
   (14, 14),
   (13, 13),
   (8, 12)]),
 ([(94, 1)], []),
 ([(44, 1),
   (45, 1),
   (46, 1),
   (47, 1),
   (48, 1),
   (49, 0),
   (50, 0),
   (51, 0),
   (52, 0),
   (53, 0),
   (54, 0),
   (55, 0),
   (56, 0),
   (57, 0),
   (58, 0),
   (59, 0),
   (60, 0),
   (61, 0),
   (62, 0),
   (63, 0),
   (64, 0),
   (65, 0),
   (66, 0),
   (67, 0),
   (68, 0),
   (69, 0),
   (70, 0),
   (71, 0),
   (72, 0),
   (73, 0),
   (74, 0),
   (75, 0),
   (76, 0),
   (77, 0),
   (78, 0),
   (79, 0),
   (80, 0),
   (81, 0),
   (82, 0),
   (83, 0),
   (84, 0),
   (85, 0),
   (86, 0),
   (87, 0),
   (88, 0),
   (89, 0),
   (90, 0),
   (93, 0),
   (95, 0)],
  [(79, 95),
   (77, 94),
   (63, 93),
   (80, 92),
   (47, 33),
   (46, 32),
   (45, 31),
   (44, 30),
   (43, 29),
   (42, 28),
   (41, 27),
   (40, 26),
   (38, 25),
   (37, 24),
   (36, 23),
   (35, 22),
   (34, 21),
   (33, 20),
   (32, 19),
   (31, 18),
   (30, 17),
   (29, 16),
   (17, 91),
   (16, 15),
   (8, 12)]),
 ([(50, 1),
   (51, 1),
   (52, 1),
   (53, 1),
   (54, 1),
   (63, 1),
   (64, 1),
   (65, 1),
   (66, 1),
   (68, 1),
   (69, 1),
   (76, 1),
   (77, 1),
   (78, 1),
   (79, 1),
   (82, 1),
   (83, 1),
   (84, 1),
   (85, 1),
   (86, 1),
   (87, 1),
   (93, 1),
   (95, 1)],
  [(54, 75),
   (53, 74),
   (52, 73),
   (51, 72),
   (50, 71),
   (49, 90),
   (48, 89),
   (23, 70),
   (22, 69),
   (21, 68),
   (20, 67),
   (19, 66),
   (18, 65),
   (17, 64),
   (16, 63),
   (15, 62),
   (14, 61),
   (13, 60),
   (12, 59),
   (11, 58),
   (10, 57),
   (9, 56),
   (8, 55)]),
 ([(55, 1)], []),
 ([(56, 1)], []),
 ([(57, 1)], []),
 ([(58, 1)], []),
 ([(59, 1)], []),
 ([(60, 1)], []),
 ([(61, 1)], []),
 ([(62, 1)], []),
 ([(67, 1)], []),
 ([(70, 1)], []),
 ([(72, 1)], []),
 ([(73, 1)], []),
 ([(74, 1)], []),
 ([(75, 1)], []),
 ([(71, 1)], []),
 ([(80, 1)], []),
 ([(81, 1)], []),
 ([(88, 1)], []),
 ([(17, 4)], []),
 ([(22, 1),
   (23, 1),
   (25, 0),
   (26, 0),
   (27, 0),
   (28, 0),
   (29, 0),
   (30, 0),
   (31, 0),
   (32, 0),
   (33, 0),
   (34, 0),
   (35, 0),
   (36, 0),
   (37, 0),
   (38, 0),
   (39, 0),
   (40, 0),
   (41, 0),
   (42, 0),
   (43, 0),
   (44, 0),
   (45, 0),
   (46, 0),
   (47, 0),
   (48, 0),
   (50, 0),
   (51, 0),
   (52, 0),
   (53, 0),
   (54, 0),
   (55, 0),
   (56, 0),
   (57, 0),
   (58, 0),
   (59, 0),
   (60, 0),
   (61, 0),
   (62, 0),
   (63, 0),
   (64, 0),
   (65, 0),
   (66, 0),
   (67, 0),
   (68, 0),
   (69, 0),
   (70, 0),
   (71, 0),
   (72, 0),
   (73, 0),
   (74, 0),
   (75, 0),
   (76, 0),
   (77, 0),
   (78, 0),
   (79, 0),
   (80, 0),
   (81, 0),
   (82, 0),
   (83, 0),
   (84, 0),
   (85, 0),
   (86, 0),
   (87, 0),
   (88, 0),
   (89, 0),
   (90, 0),
   (93, 0),
   (94, 0),
   (95, 0)],
  [(79, 46),
   (78, 45),
   (77, 44),
   (63, 43),
   (76, 42),
   (74, 41),
   (73, 40),
   (72, 39),
   (71, 38),
   (70, 37),
   (69, 88),
   (47, 33),
   (46, 32),
   (45, 31),
   (44, 30),
   (43, 29),
   (42, 28),
   (41, 27),
   (40, 26),
   (38, 25),
   (37, 24),
   (36, 23),
   (35, 22),
   (34, 21),
   (33, 20),
   (32, 19),
   (31, 18),
   (30, 17),
   (29, 16),
   (16, 15),
   (14, 14),
   (13, 13),
   (8, 12)]),
 ([(24, 1), (25, 1)], [(20, 86)]),
 ([(26, 1)], []),
 ([(27, 1)], []),
 ([(28, 1)], []),
 ([(29, 1)], []),
 ([(30, 1), (31, 1), (32, 1), (33, 1), (34, 1)], [(18, 78), (11, 77), (10, 76)]),
 ([(35, 1),
   (40, 1),
   (41, 1),
   (42, 1),
   (43, 1),
   (49, 0),
   (50, 0),
   (51, 0),
   (52, 0),
   (53, 0),
   (54, 0),
   (55, 0),
   (56, 0),
   (57, 0),
   (58, 0),
   (59, 0),
   (60, 0),
   (61, 0),
   (62, 0),
   (63, 0),
   (64, 0),
   (65, 0),
   (66, 0),
   (67, 0),
   (68, 0),
   (69, 0),
   (70, 0),
   (71, 0),
   (72, 0),
   (73, 0),
   (74, 0),
   (75, 0),
   (76, 0),
   (77, 0),
   (78, 0),
   (79, 0),
   (80, 0),
   (81, 0),
   (82, 0),
   (83, 0),
   (84, 0),
   (85, 0),
   (86, 0),
   (87, 0),
   (88, 0),
   (89, 0),
   (90, 0),
   (93, 0),
   (95, 0)],
  [(79, 51),
   (77, 50),
   (63, 49),
   (80, 48),
   (47, 33),
   (46, 32),
   (45, 31),
   (44, 30),
   (43, 29),
   (42, 28),
   (41, 27),
   (40, 26),
   (38, 25),
   (37, 24),
   (36, 23),
   (35, 22),
   (34, 21),
   (33, 20),
   (32, 19),
   (31, 18),
   (30, 17),
   (29, 16),
   (16, 15),
   (15, 47),
   (8, 12)]),
 ([(36, 1)], []),
 ([(37, 1)], []),
 ([(38, 1)], []),
 ([(39, 1)], []),
 ([(35, 2)], []),
 ([(40, 2)], []),
 ([(42, 2), (49, 1)], [(12, 52)]),
 ([(41, 2)], []),
 ([(43, 2)], []),
 ([(49, 2),
   (50, 0),
   (51, 0),
   (52, 0),
   (53, 0),
   (54, 0),
   (55, 0),
   (56, 0),
   (57, 0),
   (58, 0),
   (59, 0),
   (60, 0),
   (61, 0),
   (62, 0),
   (63, 0),
   (64, 0),
   (65, 0),
   (66, 0),
   (67, 0),
   (68, 0),
   (69, 0),
   (70, 0),
   (71, 0),
   (72, 0),
   (73, 0),
   (74, 0),
   (75, 0),
   (76, 0),
   (77, 0),
   (78, 0),
   (79, 0),
   (80, 0),
   (81, 0),
   (82, 0),
   (83, 0),
   (84, 0),
   (85, 0),
   (86, 0),
   (87, 0),
   (88, 0),
   (89, 0),
   (90, 0)],
  [(63, 54),
   (47, 33),
   (46, 32),
   (45, 31),
   (44, 30),
   (43, 29),
   (42, 28),
   (41, 27),
   (40, 26),
   (38, 25),
   (37, 24),
   (36, 23),
   (35, 22),
   (34, 21),
   (33, 20),
   (32, 19),
   (31, 18),
   (30, 17),
   (29, 16),
   (16, 53),
   (8, 12)]),
 ([(50, 1),
   (51, 1),
   (52, 1),
   (53, 1),
   (54, 1),
   (63, 1),
   (64, 1),
   (65, 1),
   (66, 1),
   (68, 1),
   (69, 1),
   (76, 1),
   (77, 1),
   (78, 1),
   (79, 1),
   (82, 1),
   (83, 1),
   (84, 1),
   (85, 1),
   (86, 1),
   (87, 1)],
  [(54, 75),
   (53, 74),
   (52, 73),
   (51, 72),
   (50, 71),
   (23, 70),
   (22, 69),
   (21, 68),
   (20, 67),
   (19, 66),
   (18, 65),
   (17, 64),
   (16, 63),
   (15, 62),
   (14, 61),
   (13, 60),
   (12, 59),
   (11, 58),
   (10, 57),
   (9, 56),
   (8, 55)]),
 ([(49, 3)], []),
 ([(63, 2)], []),
 ([(64, 2)], []),
 ([(65, 2)], []),
 ([(66, 2)], []),
 ([(68, 2)], []),
 ([(69, 2)], []),
 ([(76, 2)], []),
 ([(78, 2)], []),
 ([(77, 2)], []),
 ([(79, 2)], []),
 ([(82, 2)], []),
 ([(84, 2)], []),
 ([(83, 2)], []),
 ([(85, 2)], []),
 ([(86, 2)], []),
 ([(87, 2)], []),
 ([(51, 2)], []),
 ([(54, 2)], []),
 ([(50, 2)], []),
 ([(53, 2)], []),
 ([(52, 2)], []),
 ([(31, 2)], []),
 ([(32, 2)], []),
 ([(33, 2), (34, 2), (91, 0), (92, 0)], [(75, 80), (39, 79)]),
 ([(92, 1)], []),
 ([(33, 3), (34, 3), (91, 1)], [(39, 83), (37, 82), (19, 81)]),
 ([(33, 4)], []),
 ([(34, 4), (91, 0), (92, 0)], [(75, 84), (39, 79)]),
 ([(91, 2)], []),
 ([(34, 5), (91, 1)], [(39, 83), (19, 85)]),
 ([(34, 6)], []),
 ([(25, 2),
   (50, 0),
   (51, 0),
   (52, 0),
   (53, 0),
   (54, 0),
   (55, 0),
   (56, 0),
   (57, 0),
   (58, 0),
   (59, 0),
   (60, 0),
   (61, 0),
   (62, 0),
   (63, 0),
   (64, 0),
   (65, 0),
   (66, 0),
   (67, 0),
   (68, 0),
   (69, 0),
   (70, 0),
   (71, 0),
   (72, 0),
   (73, 0),
   (74, 0),
   (75, 0),
   (76, 0),
   (77, 0),
   (78, 0),
   (79, 0),
   (80, 0),
   (81, 0),
   (82, 0),
   (83, 0),
   (84, 0),
   (85, 0),
   (86, 0),
   (87, 0),
   (88, 0),
   (89, 0),
   (90, 0)],
  [(63, 87),
   (47, 33),
   (46, 32),
   (45, 31),
   (44, 30),
   (43, 29),
   (42, 28),
   (41, 27),
   (40, 26),
   (38, 25),
   (37, 24),
   (36, 23),
   (35, 22),
   (34, 21),
   (33, 20),
   (32, 19),
   (31, 18),
   (30, 17),
   (29, 16),
   (16, 53),
   (8, 12)]),
 ([(25, 3)], []),
 ([(23, 2), (25, 1)], [(20, 86)]),
 ([(93, 2)], []),
 ([(95, 2)], []),
 ([(48, 2)], []),
 ([(44, 2)], []),
 ([(46, 2), (49, 1)], [(12, 52)]),
 ([(45, 2)], []),
 ([(47, 2)], []),
 ([(89, 2)], [(21, 99)]),
 ([(90, 2)], [(9, 98)]),
 ([(90, 3)], []),
 ([(18, 0), (19, 0), (89, 3)], [(66, 100), (44, 8)]),
 ([(18, 1), (89, 4)], [(44, 11), (22, 101)]),
 ([(22, 0),
   (23, 0),
   (24, 0),
   (25, 0),
   (26, 0),
   (27, 0),
   (28, 0),
   (29, 0),
   (30, 0),
   (31, 0),
   (32, 0),
   (33, 0),
   (34, 0),
   (35, 0),
   (36, 0),
   (37, 0),
   (38, 0),
   (39, 0),
   (40, 0),
   (41, 0),
   (42, 0),
   (43, 0),
   (44, 0),
   (45, 0),
   (46, 0),
   (47, 0),
   (48, 0),
   (50, 0),
   (51, 0),
   (52, 0),
   (53, 0),
   (54, 0),
   (55, 0),
   (56, 0),
   (57, 0),
   (58, 0),
   (59, 0),
   (60, 0),
   (61, 0),
   (62, 0),
   (63, 0),
   (64, 0),
   (65, 0),
   (66, 0),
   (67, 0),
   (68, 0),
   (69, 0),
   (70, 0),
   (71, 0),
   (72, 0),
   (73, 0),
   (74, 0),
   (75, 0),
   (76, 0),
   (77, 0),
   (78, 0),
   (79, 0),
   (80, 0),
   (81, 0),
   (82, 0),
   (83, 0),
   (84, 0),
   (85, 0),
   (86, 0),
   (87, 0),
   (88, 0),
   (89, 0),
   (89, 5),
   (90, 0),
   (93, 0),
   (94, 0),
   (95, 0)],
  [(79, 46),
   (78, 45),
   (77, 44),
   (63, 43),
   (76, 42),
   (74, 41),
   (73, 40),
   (72, 39),
   (71, 38),
   (70, 37),
   (69, 36),
   (68, 35),
   (67, 102),
   (47, 33),
   (46, 32),
   (45, 31),
   (44, 30),
   (43, 29),
   (42, 28),
   (41, 27),
   (40, 26),
   (38, 25),
   (37, 24),
   (36, 23),
   (35, 22),
   (34, 21),
   (33, 20),
   (32, 19),
   (31, 18),
   (30, 17),
   (29, 16),
   (16, 15),
   (14, 14),
   (13, 13),
   (8, 12)]),
 ([(89, 6)], [(9, 103)]),
 ([(89, 7)], []),
 ([(11, 1)], []),
 ([(10, 1)], [(25, 114)]),
 ([(4, 2), (5, 2), (6, 2), (7, 2), (12, 0), (17, 0), (20, 0), (21, 0)],
  [(65, 6), (60, 109), (58, 108), (55, 107), (38, 1)]),
 ([(7, 3)], [(40, 110)]),
 ([(5, 3)], []),
 ([(6, 3)], []),
 ([(7, 4),
   (8, 0),
   (9, 0),
   (50, 0),
   (51, 0),
   (52, 0),
   (53, 0),
   (54, 0),
   (55, 0),
   (56, 0),
   (57, 0),
   (58, 0),
   (59, 0),
   (60, 0),
   (61, 0),
   (62, 0),
   (63, 0),
   (64, 0),
   (65, 0),
   (66, 0),
   (67, 0),
   (68, 0),
   (69, 0),
   (70, 0),
   (71, 0),
   (72, 0),
   (73, 0),
   (74, 0),
   (75, 0),
   (76, 0),
   (77, 0),
   (78, 0),
   (79, 0),
   (80, 0),
   (81, 0),
   (82, 0),
   (83, 0),
   (84, 0),
   (85, 0),
   (86, 0),
   (87, 0),
   (88, 0),
   (89, 0),
   (90, 0)],
  [(63, 112),
   (61, 111),
   (47, 33),
   (46, 32),
   (45, 31),
   (44, 30),
   (43, 29),
   (42, 28),
   (41, 27),
   (40, 26),
   (38, 25),
   (37, 24),
   (36, 23),
   (35, 22),
   (34, 21),
   (33, 20),
   (32, 19),
   (31, 18),
   (30, 17),
   (29, 16),
   (16, 53),
   (8, 12)]),
 ([(7, 5),
   (8, 1),
   (50, 0),
   (51, 0),
   (52, 0),
   (53, 0),
   (54, 0),
   (55, 0),
   (56, 0),
   (57, 0),
   (58, 0),
   (59, 0),
   (60, 0),
   (61, 0),
   (62, 0),
   (63, 0),
   (64, 0),
   (65, 0),
   (66, 0),
   (67, 0),
   (68, 0),
   (69, 0),
   (70, 0),
   (71, 0),
   (72, 0),
   (73, 0),
   (74, 0),
   (75, 0),
   (76, 0),
   (77, 0),
   (78, 0),
   (79, 0),
   (80, 0),
   (81, 0),
   (82, 0),
   (83, 0),
   (84, 0),
   (85, 0),
   (86, 0),
   (87, 0),
   (88, 0),
   (89, 0),
   (90, 0)],
  [(63, 113),
   (47, 33),
   (46, 32),
   (45, 31),
   (44, 30),
   (43, 29),
   (42, 28),
   (41, 27),
   (40, 26),
   (38, 25),
   (37, 24),
   (36, 23),
   (35, 22),
   (34, 21),
   (33, 20),
   (32, 19),
   (31, 18),
   (30, 17),
   (29, 16),
   (16, 53),
   (8, 12)]),
 ([(9, 1)], []),
 ([(8, 2)], []),
 ([(10, 2)], []),
 ([(3, 2),
   (8, 0),
   (9, 0),
   (50, 0),
   (51, 0),
   (52, 0),
   (53, 0),
   (54, 0),
   (55, 0),
   (56, 0),
   (57, 0),
   (58, 0),
   (59, 0),
   (60, 0),
   (61, 0),
   (62, 0),
   (63, 0),
   (64, 0),
   (65, 0),
   (66, 0),
   (67, 0),
   (68, 0),
   (69, 0),
   (70, 0),
   (71, 0),
   (72, 0),
   (73, 0),
   (74, 0),
   (75, 0),
   (76, 0),
   (77, 0),
   (78, 0),
   (79, 0),
   (80, 0),
   (81, 0),
   (82, 0),
   (83, 0),
   (84, 0),
   (85, 0),
   (86, 0),
   (87, 0),
   (88, 0),
   (89, 0),
   (90, 0)],
  [(63, 112),
   (61, 116),
   (47, 33),
   (46, 32),
   (45, 31),
   (44, 30),
   (43, 29),
   (42, 28),
   (41, 27),
   (40, 26),
   (38, 25),
   (37, 24),
   (36, 23),
   (35, 22),
   (34, 21),
   (33, 20),
   (32, 19),
   (31, 18),
   (30, 17),
   (29, 16),
   (16, 53),
   (8, 12)]),
 ([(3, 3),
   (8, 1),
   (50, 0),
   (51, 0),
   (52, 0),
   (53, 0),
   (54, 0),
   (55, 0),
   (56, 0),
   (57, 0),
   (58, 0),
   (59, 0),
   (60, 0),
   (61, 0),
   (62, 0),
   (63, 0),
   (64, 0),
   (65, 0),
   (66, 0),
   (67, 0),
   (68, 0),
   (69, 0),
   (70, 0),
   (71, 0),
   (72, 0),
   (73, 0),
   (74, 0),
   (75, 0),
   (76, 0),
   (77, 0),
   (78, 0),
   (79, 0),
   (80, 0),
   (81, 0),
   (82, 0),
   (83, 0),
   (84, 0),
   (85, 0),
   (86, 0),
   (87, 0),
   (88, 0),
   (89, 0),
   (90, 0)],
  [(63, 113),
   (47, 33),
   (46, 32),
   (45, 31),
   (44, 30),
   (43, 29),
   (42, 28),
   (41, 27),
   (40, 26),
   (38, 25),
   (37, 24),
   (36, 23),
   (35, 22),
   (34, 21),
   (33, 20),
   (32, 19),
   (31, 18),
   (30, 17),
   (29, 16),
   (16, 53),
   (8, 12)]),
 ([(12, 2), (13, 0), (14, 0), (15, 0), (16, 0)], [(64, 120), (56, 119), (55, 118)]),
 ([(16, 1)], []),
 ([(14, 1)], []),
 ([(12, 3), (13, 1), (15, 1)], [(56, 122), (55, 121)]),
 ([(15, 2)], []),
 ([(13, 2)], [])]

def schemaTables : Grammar.Cert where
  prods := certProds
  terms := 144115188075855871
  starts := certStarts
  null := 36893488147419103232
  first := certFirst
  follow := certFollow
  beside := certBeside
  states := certStates
  fin := 0

end LogSurgeon
