/-!
# Certificates for the exponents up to 11213

Generated.  Every prime up to 11213 with 0 if it is in the table of `period.cpp`, 1 if the Lucas–Lehmer test shows that
`2^p - 1` is composite, else with a factor of `2^p - 1`.
-/

namespace MTT.Mexp

def certs1 : List (Nat × Nat) :=
  [(2, 0), (3, 0), (5, 0), (7, 0), (11, 23), (13, 0), (17, 0), (19, 0), (23, 47), (29, 233), (31, 0), (37, 223),
   (41, 13367), (43, 431), (47, 2351), (53, 6361), (59, 179951), (61, 0), (67, 193707721), (71, 228479), (73, 439),
   (79, 2687), (83, 167), (89, 0), (97, 11447), (101, 1), (103, 1), (107, 0), (109, 1), (113, 3391), (127, 0),
   (131, 263), (137, 1), (139, 1), (149, 1), (151, 18121), (157, 852133201), (163, 150287), (167, 2349023),
   (173, 730753), (179, 359), (181, 43441), (191, 383), (193, 13821503), (197, 7487), (199, 1), (211, 15193),
   (223, 18287), (227, 1), (229, 1504073), (233, 1399), (239, 479), (241, 22000409), (251, 503), (257, 1),
   (263, 23671), (269, 13822297), (271, 1), (277, 1121297), (281, 80929), (283, 9623), (293, 1), (307, 14608903),
   (311, 5344847), (313, 10960009), (317, 9511), (331, 1), (337, 18199), (347, 1), (349, 1), (353, 931921),
   (359, 719), (367, 12479), (373, 25569151), (379, 1), (383, 1440847), (389, 56478911), (397, 2383), (401, 1),
   (409, 1), (419, 839), (421, 1), (431, 863), (433, 1), (439, 104110607), (443, 887), (449, 1256303),
   (457, 150327409), (461, 2767), (463, 11113), (467, 121606801), (479, 33385343), (487, 4871), (491, 983),
   (499, 20959), (503, 1), (509, 12619129), (521, 0), (523, 1), (541, 1), (547, 5471), (557, 3343), (563, 1),
   (569, 15854617), (571, 5711), (577, 3463), (587, 554129), (593, 104369), (599, 1), (601, 3607), (607, 0),
   (613, 1), (617, 59233), (619, 110183), (631, 1), (641, 35897), (643, 3189281), (647, 1), (653, 78557207),
   (659, 1319), (661, 1330270433), (673, 581163767), (677, 1943118631), (683, 1367), (691, 1), (701, 796337),
   (709, 216868921), (719, 1439), (727, 1), (733, 1), (739, 1), (743, 1487), (751, 1), (757, 9815263), (761, 4567),
   (769, 1591805393), (773, 6864241), (787, 1), (797, 2006858753), (809, 1), (811, 326023), (821, 419273207),
   (823, 1), (827, 66161), (829, 72953), (839, 26849), (853, 2065711807), (857, 6857), (859, 7215601),
   (863, 8258911), (877, 35081), (881, 26431), (883, 8831), (887, 16173559), (907, 1170031), (911, 1823), (919, 1),
   (929, 13007), (937, 28111), (941, 7529), (947, 295130657), (953, 343081), (967, 23209), (971, 1), (977, 867577),
   (983, 1), (991, 1), (997, 1), (1009, 3454817), (1013, 6079), (1019, 2039), (1021, 40841), (1031, 2063),
   (1033, 196271), (1039, 5080711), (1049, 33569), (1051, 3575503), (1061, 1), (1063, 1485761479), (1069, 1),
   (1087, 10722169), (1091, 87281), (1093, 43721), (1097, 980719), (1103, 2207), (1109, 1), (1117, 53617), (1123, 1),
   (1129, 33871), (1151, 1), (1153, 267497), (1163, 1), (1171, 1), (1181, 4742897), (1187, 256393), (1193, 121687),
   (1201, 57649), (1213, 327511), (1217, 1045741327), (1223, 2447), (1229, 36871), (1231, 531793), (1237, 1),
   (1249, 97423), (1259, 1), (1277, 1), (1279, 0), (1283, 1), (1289, 1), (1291, 1), (1297, 1), (1301, 1),
   (1303, 10444849), (1307, 1), (1319, 1), (1321, 7927), (1327, 2730967), (1361, 8167), (1367, 10937),
   (1373, 1957392737), (1381, 8287), (1399, 28875361), (1409, 1), (1423, 1699063), (1427, 1), (1429, 1),
   (1433, 20063), (1439, 2879), (1447, 57881), (1451, 2903), (1453, 8719), (1459, 14591), (1471, 1), (1481, 71089),
   (1483, 1), (1487, 1), (1489, 71473), (1493, 3788526319), (1499, 2999), (1511, 3023), (1523, 2522089),
   (1531, 88799), (1543, 101839), (1549, 1), (1553, 1), (1559, 3119), (1567, 1), (1571, 1), (1579, 132272831),
   (1583, 3167), (1597, 1), (1601, 158098751), (1607, 28927), (1609, 2394193), (1613, 165545417), (1619, 1),
   (1621, 1), (1627, 25722871), (1637, 81679753), (1657, 1), (1663, 16631), (1667, 13337), (1669, 1), (1693, 10159),
   (1697, 1235417), (1699, 1), (1709, 379399), (1721, 175543), (1723, 17231), (1733, 1), (1741, 1002817), (1747, 1),
   (1753, 1), (1759, 1), (1777, 10663), (1783, 107022793), (1787, 1), (1789, 39359), (1801, 28817), (1811, 3623),
   (1823, 120319), (1831, 1), (1847, 33247), (1861, 1023551), (1867, 1), (1871, 14969), (1873, 1), (1877, 15017),
   (1879, 605039), (1889, 1), (1901, 12147391), (1907, 1), (1913, 6301423), (1931, 3863), (1933, 645881023),
   (1949, 1), (1951, 1), (1973, 122327), (1979, 32392273), (1987, 67559), (1993, 11959), (1997, 395407),
   (1999, 1807097), (2003, 4007), (2011, 2171881), (2017, 9338711), (2027, 5405684681), (2029, 1), (2039, 4079),
   (2053, 1), (2063, 4127), (2069, 326903), (2081, 266369), (2083, 7269671), (2087, 561653441), (2089, 1),
   (2099, 22858111), (2111, 341983), (2113, 2231329), (2129, 1), (2131, 3273217), (2137, 1), (2141, 389663),
   (2143, 1), (2153, 1), (2161, 1), (2179, 248407), (2203, 0), (2207, 123593), (2213, 53113), (2221, 1), (2237, 1),
   (2239, 1), (2243, 1), (2251, 400679), (2267, 1), (2269, 1), (2273, 1), (2281, 0), (2287, 1)]

def certs2 : List (Nat × Nat) :=
  [(2293, 1), (2297, 5765471), (2309, 61636447), (2311, 1), (2333, 312623), (2339, 4679), (2341, 1),
   (2347, 205803737), (2351, 4703), (2357, 1), (2371, 1), (2377, 1), (2381, 1), (2383, 1132387303), (2389, 71671),
   (2393, 33503), (2399, 4799), (2411, 19289), (2417, 14503), (2423, 1), (2437, 3205142401), (2441, 1),
   (2447, 8163193), (2459, 4919), (2467, 1), (2473, 4268907439), (2477, 1), (2503, 192030161), (2521, 1),
   (2531, 789673), (2539, 25391), (2543, 5087), (2549, 4363889), (2551, 1), (2557, 1), (2579, 19868617),
   (2591, 766937), (2593, 15559), (2609, 36527), (2617, 78511), (2621, 15727), (2633, 179654857), (2647, 1),
   (2657, 37199), (2659, 1), (2663, 63913), (2671, 1), (2677, 364073), (2683, 1), (2687, 198839), (2689, 7158119),
   (2693, 1), (2699, 5399), (2707, 173249), (2711, 585577), (2713, 1), (2719, 1), (2729, 1), (2731, 93968249),
   (2741, 82231), (2749, 45737863), (2753, 4795727), (2767, 625343), (2777, 1), (2789, 1), (2791, 1), (2797, 1),
   (2801, 1), (2803, 1), (2819, 5639), (2833, 356346073), (2837, 22697), (2843, 142151), (2851, 1), (2857, 3679817),
   (2861, 7715659241), (2879, 2770265929), (2887, 1), (2897, 17383), (2903, 5807), (2909, 110543), (2917, 22869281),
   (2927, 1), (2939, 5879), (2953, 88591), (2957, 10347489241), (2963, 5927), (2969, 1), (2971, 1), (2999, 671777),
   (3001, 3217073), (3011, 2023393), (3019, 1), (3023, 6047), (3037, 18223), (3041, 24329), (3049, 1), (3061, 1),
   (3067, 22063999), (3079, 1), (3083, 15914447), (3089, 1), (3109, 1), (3119, 24953), (3121, 1123561),
   (3137, 2001407), (3163, 455473), (3167, 12237289), (3169, 507743519), (3181, 19087), (3187, 14452484089),
   (3191, 40895857), (3203, 1), (3209, 1), (3217, 0), (3221, 644201), (3229, 137374577), (3251, 1), (3253, 46452841),
   (3257, 97711), (3259, 1), (3271, 1), (3299, 6599), (3301, 1), (3307, 1), (3313, 1), (3319, 33191),
   (3323, 2312809), (3329, 26633), (3331, 1), (3343, 1), (3347, 26777), (3359, 6719), (3361, 557927), (3371, 1),
   (3373, 2042978879), (3389, 1), (3391, 298409), (3407, 138685343), (3413, 1), (3433, 4442303), (3449, 565822247),
   (3457, 20743), (3461, 1), (3463, 3052267423), (3467, 1), (3469, 1), (3491, 6983), (3499, 3582977), (3511, 35111),
   (3517, 562721), (3527, 63487), (3529, 105871), (3533, 190783), (3539, 7079), (3541, 764857), (3547, 1),
   (3557, 426841), (3559, 1), (3571, 64279), (3581, 21487), (3583, 1), (3593, 21559), (3607, 1), (3613, 206916511),
   (3617, 8384488127), (3623, 7247), (3631, 1), (3637, 1), (3643, 1627896409), (3659, 4105399), (3671, 1), (3673, 1),
   (3677, 827972153), (3691, 1), (3697, 1), (3701, 111031), (3709, 1), (3719, 4351231), (3727, 205342793),
   (3733, 1314017), (3739, 1), (3761, 55655279), (3767, 30137), (3769, 1), (3779, 7559), (3793, 60689),
   (3797, 91129), (3803, 7607), (3821, 1), (3823, 8968759), (3833, 14193959303), (3847, 1), (3851, 7703),
   (3853, 3390641), (3863, 7727), (3877, 1), (3881, 1), (3889, 1), (3907, 531353), (3911, 7823), (3917, 407369),
   (3919, 1), (3923, 219689), (3929, 160020313), (3931, 2618047), (3943, 1), (3947, 1277249201), (3967, 63473),
   (3989, 191473), (4001, 24007), (4003, 16756559), (4007, 1), (4013, 120391), (4019, 8039), (4021, 10800407),
   (4027, 1), (4049, 1), (4051, 1), (4057, 97369), (4073, 5669617), (4079, 102823433), (4091, 1), (4093, 1),
   (4099, 73783), (4111, 1), (4127, 74287), (4129, 1585537), (4133, 11173615097), (4139, 16820897), (4153, 91367),
   (4157, 1), (4159, 1), (4177, 1), (4201, 3612691961), (4211, 8423), (4217, 2184407), (4219, 1), (4229, 329863),
   (4231, 1), (4241, 1), (4243, 101833), (4253, 0), (4259, 1), (4261, 1), (4271, 8543), (4273, 25639), (4283, 1),
   (4289, 34313), (4297, 893777), (4327, 946574521), (4337, 159211271), (4339, 1), (4349, 1), (4357, 1), (4363, 1),
   (4373, 61223), (4391, 8783), (4397, 1), (4409, 1), (4421, 1), (4423, 0), (4441, 26647), (4447, 71153),
   (4451, 196315807), (4457, 1631263), (4463, 1498603993), (4481, 1), (4483, 5854799), (4493, 1), (4507, 21381209),
   (4513, 135391), (4517, 27103), (4519, 6537366161), (4523, 1), (4547, 205815409), (4549, 136471), (4561, 72977),
   (4567, 1), (4583, 1), (4591, 1), (4597, 27583), (4603, 626009), (4621, 1), (4637, 222056657), (4639, 194839),
   (4643, 1), (4649, 595073), (4651, 1), (4657, 1145623), (4663, 1), (4673, 21672542207), (4679, 1), (4691, 572303),
   (4703, 1), (4721, 1), (4723, 2909369), (4729, 1), (4733, 1), (4751, 268982617), (4759, 114217), (4783, 1),
   (4787, 114889), (4789, 6854888399), (4793, 67103), (4799, 1), (4801, 28807), (4813, 28879), (4817, 1), (4831, 1),
   (4861, 29167), (4871, 9743), (4877, 1), (4889, 1), (4903, 49031), (4909, 17693989783), (4919, 9839),
   (4931, 33264527), (4933, 29599), (4937, 1), (4943, 9887), (4951, 1), (4957, 148711), (4967, 327823),
   (4969, 879473249), (4973, 1), (4987, 1), (4993, 79889), (4999, 209959), (5003, 10007), (5009, 36425449),
   (5011, 80177), (5021, 40169), (5023, 1), (5039, 10079), (5051, 10103), (5059, 179331433), (5077, 1), (5081, 1),
   (5087, 40697)]

def certs3 : List (Nat × Nat) :=
  [(5099, 1), (5101, 8110591), (5107, 51071), (5113, 1), (5119, 82978991), (5147, 4185169817), (5153, 1),
   (5167, 6531089), (5171, 10343), (5179, 248593), (5189, 155671), (5197, 31183), (5209, 1945613591),
   (5227, 1129033), (5231, 10463), (5233, 994271), (5237, 4022017), (5261, 42089), (5273, 38134337), (5279, 10559),
   (5281, 24715081), (5297, 4449481), (5303, 10607), (5309, 1), (5323, 2372950817), (5333, 1), (5347, 310127),
   (5351, 1), (5381, 48170713), (5387, 1), (5393, 32359), (5399, 10799), (5407, 1), (5413, 5326393), (5417, 433361),
   (5419, 1), (5431, 54311), (5437, 2087809), (5441, 3656353), (5443, 1), (5449, 2517439), (5471, 1), (5477, 1),
   (5479, 1), (5483, 888247), (5501, 693127), (5503, 1), (5507, 21675553), (5519, 662281), (5521, 88337), (5527, 1),
   (5531, 940271), (5557, 33343), (5563, 534049), (5569, 37813511), (5573, 1), (5581, 1), (5591, 1), (5623, 1135847),
   (5639, 11279), (5641, 1), (5647, 1), (5651, 2828212481), (5653, 1), (5657, 218122607), (5659, 867830287),
   (5669, 1), (5683, 875183), (5689, 1), (5693, 1), (5701, 1), (5711, 11423), (5717, 34303), (5737, 1),
   (5741, 48224401), (5743, 643217), (5749, 1), (5779, 924641), (5783, 1), (5791, 926561), (5801, 34807),
   (5807, 139369), (5813, 1), (5821, 88805177), (5827, 91658711), (5839, 1), (5843, 712847), (5849, 4105999),
   (5851, 1), (5857, 1), (5861, 46889), (5867, 16239857), (5869, 1), (5879, 1), (5881, 662671081), (5897, 1),
   (5903, 11807), (5923, 1), (5927, 198969391), (5939, 617657), (5953, 1), (5981, 3883379567), (5987, 1), (6007, 1),
   (6011, 288529), (6029, 84407), (6037, 1), (6043, 1), (6047, 1), (6053, 1), (6067, 206279), (6073, 1), (6079, 1),
   (6089, 1), (6091, 1), (6101, 7906897), (6113, 2530783), (6121, 81237913), (6131, 12263), (6133, 1),
   (6143, 884593), (6151, 1), (6163, 591649), (6173, 37039), (6197, 297457), (6199, 61991), (6203, 148873),
   (6211, 1), (6217, 1), (6221, 1), (6229, 1), (6247, 1), (6257, 1), (6263, 12527), (6269, 1), (6271, 13959247),
   (6277, 37663), (6287, 5029601), (6299, 1), (6301, 150959359), (6311, 3647759), (6317, 694871), (6323, 12647),
   (6329, 1), (6337, 1), (6343, 9045119), (6353, 38119), (6359, 1), (6361, 1), (6367, 63671), (6373, 38239),
   (6379, 4972928063), (6389, 191671), (6397, 1944689), (6421, 5689007), (6427, 10951609), (6449, 51593), (6451, 1),
   (6469, 1), (6473, 2796337), (6481, 622177), (6491, 12983), (6521, 4890751), (6529, 731249), (6547, 1),
   (6551, 13103), (6553, 1454767), (6563, 13127), (6569, 6621553), (6571, 1), (6577, 1), (6581, 1), (6599, 1),
   (6607, 8034113), (6619, 471762607), (6637, 5203409), (6653, 4305755071), (6659, 1), (6661, 33930121529),
   (6673, 6766423), (6679, 1), (6689, 142168007), (6691, 321169), (6701, 1), (6703, 442399), (6709, 1),
   (6719, 1290049), (6733, 1), (6737, 741071), (6761, 26340857), (6763, 1), (6779, 35331931073), (6781, 108497),
   (6791, 1), (6793, 13261715767), (6803, 217697), (6823, 1), (6827, 108958921), (6829, 8286786631), (6833, 1),
   (6841, 41047), (6857, 1), (6863, 1608865639), (6869, 257051719), (6871, 288583), (6883, 1885943), (6899, 13799),
   (6907, 1), (6911, 1), (6917, 55337), (6947, 180623), (6949, 6879511), (6959, 55673), (6961, 584208887),
   (6967, 1072919), (6971, 1), (6977, 41863), (6983, 13967), (6991, 1), (6997, 2169071), (7001, 39107810033),
   (7013, 1), (7019, 990366863), (7027, 373119647), (7039, 1252943), (7043, 14087), (7057, 621017), (7069, 1),
   (7079, 14159), (7103, 14207), (7109, 1), (7121, 1), (7127, 1), (7129, 1867799), (7151, 14303), (7159, 26058761),
   (7177, 1), (7187, 48871601), (7193, 5409137), (7207, 172969), (7211, 14423), (7213, 1), (7219, 164362193),
   (7229, 1), (7237, 1), (7243, 1), (7247, 1), (7253, 52613263), (7283, 102267887), (7297, 1868033),
   (7307, 42715085233), (7309, 1), (7321, 1), (7331, 1), (7333, 1), (7349, 42197959), (7351, 1), (7369, 1),
   (7393, 6525239233), (7411, 1022719), (7417, 118673), (7433, 1), (7451, 95506919), (7457, 19969847),
   (7459, 134263), (7477, 1), (7481, 1), (7487, 179689), (7489, 1), (7499, 99121783), (7507, 1), (7517, 12012167),
   (7523, 1), (7529, 105407), (7537, 723553), (7541, 9711963409), (7547, 16980751), (7549, 7460767289), (7559, 1),
   (7561, 589759), (7573, 45439), (7577, 1), (7583, 5889276287), (7589, 288383), (7591, 1897751), (7603, 1),
   (7607, 1), (7621, 1), (7639, 550009), (7643, 15287), (7649, 1), (7669, 131093887), (7673, 184153),
   (7681, 3994121), (7687, 445847), (7691, 15383), (7699, 1), (7703, 1), (7717, 19446841), (7723, 1), (7727, 1),
   (7741, 8964079), (7753, 1), (7757, 1), (7759, 139663), (7789, 872369), (7793, 1), (7817, 1), (7823, 15647),
   (7829, 39555975527), (7841, 2367983), (7853, 47119), (7867, 1), (7873, 1180951), (7877, 517471639),
   (7879, 259250617), (7883, 15767), (7901, 47407), (7907, 546405329), (7919, 63353), (7927, 1), (7933, 46405939823),
   (7937, 1), (7949, 1), (7951, 498813937), (7963, 152889601), (7993, 2066542193), (8009, 1), (8011, 80111),
   (8017, 128273), (8039, 968554799), (8053, 219927431), (8059, 7043567), (8069, 1), (8081, 3498814409),
   (8087, 96671999), (8089, 1), (8093, 29811811823), (8101, 712889), (8111, 16223)]

def certs4 : List (Nat × Nat) :=
  [(8117, 1), (8123, 25798649), (8147, 1), (8161, 6708343), (8167, 3136129), (8171, 800759), (8179, 4318513),
   (8191, 1), (8209, 14759783), (8219, 1988999), (8221, 920753), (8231, 214007), (8233, 1), (8237, 1054337),
   (8243, 16487), (8263, 1), (8269, 727673), (8273, 1042399), (8287, 36877151), (8291, 1), (8293, 199033), (8297, 1),
   (8311, 1), (8317, 382583), (8329, 1), (8353, 50119), (8363, 1), (8369, 1), (8377, 50263), (8387, 9276023),
   (8389, 1), (8419, 488303), (8423, 353767), (8429, 67433), (8431, 809377), (8443, 1), (8447, 1), (8461, 1404527),
   (8467, 203209), (8501, 680081), (8513, 272417), (8521, 1), (8527, 1), (8537, 147843767), (8539, 13662401),
   (8543, 1), (8563, 32402393), (8573, 12345121), (8581, 1), (8597, 481433), (8599, 85991), (8609, 1),
   (8623, 80504329), (8627, 123348847), (8629, 258871), (8641, 46880604889), (8647, 1), (8663, 17327),
   (8669, 2618039), (8677, 118753423), (8681, 1), (8689, 1008827657), (8693, 260791), (8699, 417553), (8707, 1),
   (8713, 1603193), (8719, 2877271), (8731, 2514529), (8737, 681487), (8741, 69929), (8747, 21021997487), (8753, 1),
   (8761, 192743), (8779, 1), (8783, 228359), (8803, 2834567), (8807, 228983), (8819, 1), (8821, 405767), (8831, 1),
   (8837, 1), (8839, 6523183), (8849, 52368383), (8861, 1), (8863, 1), (8867, 70937), (8887, 1), (8893, 1),
   (8923, 1), (8929, 196439), (8933, 36232249), (8941, 1), (8951, 17903), (8963, 663263), (8969, 13345873),
   (8971, 1), (8999, 1), (9001, 1512169), (9007, 90071), (9011, 1), (9013, 1), (9029, 722321), (9041, 1),
   (9043, 37268518009), (9049, 28721527), (9059, 18119), (9067, 21497004703), (9091, 1), (9103, 2454405479),
   (9109, 4955297), (9127, 146033), (9133, 1), (9137, 1005071), (9151, 1), (9157, 3076753), (9161, 86901247),
   (9173, 495343), (9181, 1377151), (9187, 1), (9199, 53354201), (9203, 1), (9209, 1), (9221, 719239), (9227, 1),
   (9239, 800633263), (9241, 1), (9257, 1), (9277, 1), (9281, 1), (9283, 5941121), (9293, 4598548121),
   (9311, 1415273), (9319, 1), (9323, 895009), (9337, 2614361), (9341, 74729), (9343, 149489), (9349, 1793044711),
   (9371, 18743), (9377, 1), (9391, 93911), (9397, 225529), (9403, 2576423), (9413, 1), (9419, 18839),
   (9421, 8573111), (9431, 679033), (9433, 1), (9437, 1), (9439, 273523343), (9461, 75689), (9463, 1),
   (9467, 1340299993), (9473, 1), (9479, 18959), (9491, 531497), (9497, 531833), (9511, 95111), (9521, 361799),
   (9533, 1), (9539, 19079), (9547, 631801367), (9551, 1), (9587, 1), (9601, 2285039), (9613, 57679), (9619, 615617),
   (9623, 1), (9629, 27152451199), (9631, 1), (9643, 12362327), (9649, 1), (9661, 1), (9677, 607618831), (9679, 1),
   (9689, 0), (9697, 1), (9719, 1), (9721, 1), (9733, 2932747561), (9739, 263751599), (9743, 34626623), (9749, 1),
   (9767, 1), (9769, 1), (9781, 1), (9787, 1), (9791, 19583), (9803, 1), (9811, 7770313), (9817, 20556799),
   (9829, 707689), (9833, 4562513), (9839, 1), (9851, 78809), (9857, 1), (9859, 1104209), (9871, 1), (9883, 158129),
   (9887, 1), (9901, 1), (9907, 1), (9923, 2182682927), (9929, 1), (9931, 1), (9941, 0), (9949, 8098487), (9967, 1),
   (9973, 299191), (10007, 240169), (10009, 35311753), (10037, 1), (10039, 45613381103), (10061, 1), (10067, 503351),
   (10069, 1), (10079, 1), (10091, 20183), (10093, 306665713), (10099, 1), (10103, 2804693831), (10111, 101111),
   (10133, 141863), (10139, 1216681), (10141, 162257), (10151, 1948993), (10159, 1), (10163, 20327), (10169, 1),
   (10177, 1), (10181, 488689), (10193, 69720121), (10211, 81689), (10223, 1846703167), (10243, 18847121),
   (10247, 184447), (10253, 1293682529), (10259, 1), (10267, 35491478951), (10271, 20543), (10273, 1),
   (10289, 246937), (10301, 4532441), (10303, 1), (10313, 1), (10321, 61927), (10331, 20663), (10333, 1239961),
   (10337, 163076513), (10343, 1), (10357, 62143), (10369, 1), (10391, 19389607), (10399, 1), (10427, 35037410167),
   (10429, 5569087), (10433, 146063), (10453, 1), (10457, 62743), (10459, 11632186031), (10463, 1), (10477, 1),
   (10487, 1), (10499, 14028847793), (10501, 1), (10513, 252313), (10529, 60962911), (10531, 1), (10559, 193546471),
   (10567, 464292847), (10589, 2033089), (10597, 1), (10601, 3980103047), (10607, 275783), (10613, 339617),
   (10627, 10755119113), (10631, 531551), (10639, 1), (10651, 73981847), (10657, 2216657), (10663, 170609),
   (10667, 1), (10687, 7096169), (10691, 21383), (10709, 1), (10711, 1), (10723, 1), (10729, 1), (10733, 64399),
   (10739, 3810390503), (10753, 172049), (10771, 1), (10781, 1), (10789, 1), (10799, 21599), (10831, 1),
   (10837, 1798943), (10847, 71590201), (10853, 65119), (10859, 542951), (10861, 1477097), (10867, 260809),
   (10883, 21767), (10889, 7584754729), (10891, 196039), (10903, 40668191), (10909, 1), (10937, 1), (10939, 1),
   (10949, 153287), (10957, 1), (10973, 65839), (10979, 87833), (10987, 197767), (10993, 241847), (11003, 1),
   (11027, 1), (11047, 13433153), (11057, 1), (11059, 464479), (11069, 1), (11071, 2502047), (11083, 7447777),
   (11087, 6883896127), (11093, 1), (11113, 1), (11117, 1), (11119, 111191), (11131, 1), (11149, 7672987079),
   (11159, 1), (11161, 1), (11171, 22343), (11173, 268153), (11177, 1), (11197, 268729), (11213, 0)]

/-- All certificates, in ascending order. -/
def certs : List (Nat × Nat) := certs1 ++ (certs2 ++ (certs3 ++ certs4))

end MTT.Mexp
