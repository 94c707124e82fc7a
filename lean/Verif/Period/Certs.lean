import Verif.Period.Pocklington

/-!
# Primality certificates of the numbers in the factor tables (generated data)

Each entry is checked by the kernel in `certs_ok`; nothing here is trusted.
-/

namespace MTT.Period

/-- Certificates, in an order in which each uses only earlier numbers (and 2). -/
def certs : List Cert := [
  (3, 2, [(2, 1)]),
  (5, 2, [(2, 2)]),
  (7, 2, [(3, 1)]),
  (11, 2, [(5, 1)]),
  (13, 2, [(2, 2)]),
  (17, 3, [(2, 3)]),
  (19, 2, [(2, 1), (3, 1)]),
  (23, 2, [(11, 1)]),
  (29, 2, [(7, 1)]),
  (31, 3, [(2, 1), (3, 1)]),
  (37, 2, [(2, 2), (3, 1)]),
  (41, 3, [(2, 3)]),
  (43, 2, [(7, 1)]),
  (53, 2, [(13, 1)]),
  (61, 2, [(2, 2), (3, 1)]),
  (73, 5, [(2, 3), (3, 1)]),
  (89, 2, [(11, 1)]),
  (97, 5, [(2, 4)]),
  (101, 2, [(2, 2), (5, 1)]),
  (109, 6, [(2, 2), (3, 1)]),
  (113, 3, [(2, 4)]),
  (127, 3, [(2, 1), (3, 2)]),
  (137, 2, [(17, 1)]),
  (151, 5, [(3, 1), (5, 1)]),
  (157, 2, [(13, 1)]),
  (193, 5, [(2, 4)]),
  (241, 7, [(2, 4)]),
  (251, 3, [(5, 2)]),
  (257, 3, [(2, 5)]),
  (331, 2, [(2, 1), (3, 1), (5, 1)]),
  (353, 3, [(2, 5)]),
  (397, 5, [(2, 2), (3, 2)]),
  (401, 3, [(2, 4), (5, 1)]),
  (433, 5, [(2, 4), (3, 1)]),
  (449, 3, [(2, 5)]),
  (577, 5, [(2, 5)]),
  (601, 7, [(2, 3), (5, 1)]),
  (641, 3, [(2, 5)]),
  (673, 5, [(2, 5)]),
  (683, 3, [(31, 1)]),
  (769, 7, [(2, 5)]),
  (953, 3, [(2, 3), (7, 1)]),
  (1153, 5, [(2, 6)]),
  (1321, 13, [(2, 3), (5, 1)]),
  (1601, 3, [(2, 6)]),
  (1613, 2, [(2, 2), (13, 1)]),
  (1801, 11, [(2, 3), (3, 2)]),
  (2113, 5, [(2, 6)]),
  (2689, 13, [(2, 6)]),
  (2731, 3, [(2, 1), (5, 1), (7, 1)]),
  (4051, 3, [(3, 4)]),
  (5153, 5, [(2, 5), (7, 1)]),
  (5441, 3, [(2, 6), (5, 1)]),
  (6337, 10, [(2, 6), (3, 1)]),
  (8101, 6, [(2, 2), (3, 3)]),
  (8191, 7, [(2, 1), (3, 2), (7, 1)]),
  (23041, 11, [(2, 8)]),
  (25601, 3, [(2, 8)]),
  (26317, 6, [(2, 2), (3, 2), (17, 1)]),
  (26881, 11, [(2, 8)]),
  (67, 2, [(11, 1)]),
  (269, 2, [(67, 1)]),
  (38737, 3, [(269, 1)]),
  (43691, 3, [(257, 1)]),
  (61681, 3, [(257, 1)]),
  (65537, 3, [(2, 9)]),
  (131071, 3, [(2, 1), (3, 1), (5, 1), (17, 1)]),
  (229153, 15, [(2, 5), (3, 1), (7, 1)]),
  (268501, 6, [(2, 2), (3, 1), (5, 3)]),
  (274177, 5, [(2, 8), (3, 1)]),
  (286721, 3, [(2, 10)]),
  (340801, 11, [(2, 6), (3, 1), (5, 1)]),
  (354689, 3, [(2, 7), (17, 1)]),
  (383521, 11, [(2, 5), (3, 1), (17, 1)]),
  (414721, 7, [(2, 10)]),
  (858001, 17, [(2, 4), (3, 1), (5, 2)]),
  (928513, 5, [(2, 8), (3, 2)]),
  (2787601, 7, [(2, 4), (5, 2), (23, 1)]),
  (3602561, 3, [(2, 7), (5, 1), (13, 1)]),
  (4855681, 11, [(2, 7), (3, 3)]),
  (5304641, 3, [(2, 6), (5, 1), (11, 1)]),
  (727, 5, [(3, 1), (11, 1)]),
  (17449, 2, [(727, 1)]),
  (6700417, 3, [(17449, 1)]),
  (15790321, 19, [(2, 4), (3, 2), (5, 1), (7, 1)]),
  (47, 2, [(23, 1)]),
  (115903, 3, [(3, 2), (47, 1)]),
  (22253377, 3, [(115903, 1)]),
  (82471201, 11, [(2, 5), (3, 1), (5, 2), (7, 1)]),
  (173, 2, [(43, 1)]),
  (119782433, 3, [(2, 5), (7, 1), (173, 1)]),
  (183076097, 3, [(2, 8), (7, 1), (19, 1)]),
  (103, 2, [(17, 1)]),
  (1237, 2, [(103, 1)]),
  (49481, 2, [(1237, 1)]),
  (308761441, 3, [(49481, 1)]),
  (71, 7, [(2, 1), (5, 1)]),
  (411233, 3, [(2, 5), (71, 1)]),
  (394783681, 3, [(411233, 1)]),
  (446960641, 29, [(2, 10), (3, 1), (7, 1)]),
  (52999, 3, [(2, 1), (11, 2)]),
  (610548481, 3, [(52999, 1)]),
  (239, 2, [(17, 1)]),
  (1913, 2, [(239, 1)]),
  (2931542417, 3, [(2, 4), (11, 1), (1913, 1)]),
  (571, 3, [(2, 1), (3, 1), (5, 1)]),
  (3173389601, 6, [(2, 5), (5, 2), (571, 1)]),
  (4278255361, 3, [(65537, 1)]),
  (4562284561, 11, [(2, 4), (3, 1), (5, 1), (17, 1), (19, 1)]),
  (59, 2, [(29, 1)]),
  (709, 2, [(59, 1)]),
  (18558466369, 17, [(2, 6), (13, 1), (709, 1)]),
  (23877647873, 3, [(2, 9), (13, 1), (29, 1)]),
  (38941695937, 17, [(2, 6), (3, 2), (11, 1), (13, 1), (19, 1)]),
  (307, 5, [(2, 1), (3, 2)]),
  (43872038849, 3, [(2, 6), (11, 1), (307, 1)]),
  (5429251, 2, [(5, 3), (19, 1)]),
  (46908728641, 3, [(5429251, 1)]),
  (149, 2, [(37, 1)]),
  (660071, 11, [(2, 1), (5, 1), (149, 1)]),
  (242906129, 2, [(660071, 1)]),
  (54410972897, 3, [(242906129, 1)]),
  (96645260801, 3, [(2, 9), (5, 2), (29, 1)]),
  (277, 2, [(23, 1)]),
  (1663, 2, [(277, 1)]),
  (137603804161, 7, [(2, 10), (1663, 1)]),
  (278452876033, 5, [(2, 8), (3, 2), (19, 1), (23, 1)]),
  (1091, 2, [(109, 1)]),
  (487824887233, 5, [(2, 6), (3, 5), (1091, 1)]),
  (2437, 2, [(2, 2), (3, 1), (7, 1)]),
  (2368179743873, 3, [(2, 7), (17, 1), (2437, 1)]),
  (2879347902817, 15, [(2, 5), (3, 1), (7, 1), (11, 1), (17, 1), (19, 1)]),
  (1117, 2, [(2, 2), (3, 2)]),
  (21316654212673, 5, [(2, 6), (7, 1), (13, 1), (1117, 1)]),
  (44479210368001, 13, [(2, 10), (3, 1), (5, 3), (19, 1)]),
  (373, 2, [(31, 1)]),
  (67280421310721, 3, [(2, 8), (5, 1), (47, 1), (373, 1)]),
  (79, 2, [(13, 1)]),
  (1423, 2, [(79, 1)]),
  (5693, 2, [(1423, 1)]),
  (358429848460993, 15, [(2, 6), (3, 2), (7, 1), (5693, 1)]),
  (179, 2, [(89, 1)]),
  (359, 2, [(179, 1)]),
  (719, 2, [(359, 1)]),
  (3853149761, 6, [(2, 6), (5, 1), (719, 1)]),
  (1238926361552897, 3, [(3853149761, 1)]),
  (823, 2, [(137, 1)]),
  (52673, 2, [(823, 1)]),
  (1896229, 2, [(52673, 1)]),
  (18533742247, 2, [(1896229, 1)]),
  (116503103764643, 2, [(18533742247, 1)]),
  (59649589127497217, 3, [(116503103764643, 1)]),
  (367, 2, [(61, 1)]),
  (430089224920139, 2, [(239, 1), (367, 1), (373, 1)]),
  (715668470267111297, 3, [(430089224920139, 1)]),
  (25367, 2, [(1153, 1)]),
  (3399426377632056001, 11, [(2, 6), (5, 3), (17, 1), (25367, 1)]),
  (281, 3, [(2, 3), (5, 1)]),
  (27539, 2, [(281, 1)]),
  (330469, 2, [(27539, 1)]),
  (5948443, 2, [(330469, 1)]),
  (87323143241, 2, [(5948443, 1)]),
  (3442404051886487041, 3, [(87323143241, 1)]),
  (18446744069414584321, 7, [(2, 32)]),
  (487, 2, [(3, 3)]),
  (4871, 2, [(487, 1)]),
  (9151, 3, [(2, 1), (3, 1), (5, 2)]),
  (1848503, 2, [(9151, 1)]),
  (373200722470799764577, 3, [(2, 5), (4871, 1), (1848503, 1)]),
  (139, 2, [(23, 1)]),
  (6939437, 2, [(2, 2), (7, 1), (139, 1)]),
  (55515497, 2, [(6939437, 1)]),
  (733803839347, 2, [(55515497, 1)]),
  (5704689200685129054721, 3, [(733803839347, 1)]),
  (197, 2, [(2, 2), (7, 1)]),
  (271, 6, [(2, 1), (3, 2)]),
  (97859369123353, 5, [(2, 3), (67, 1), (197, 1), (271, 1)]),
  (167773885276849215533569, 3, [(97859369123353, 1)]),
  (10926241, 11, [(2, 5), (3, 1), (5, 1), (13, 1)]),
  (53993112525601, 2, [(10926241, 1)]),
  (4850484222084371979240001, 3, [(53993112525601, 1)]),
  (78919881726271091143763623681, 47, [(2, 8), (3, 2), (5, 1), (7, 1), (13, 1), (17, 1), (193, 1), (241, 1), (673, 1)]),
  (28751, 14, [(2, 1), (5, 3)]),
  (57503, 2, [(28751, 1)]),
  (296370463, 2, [(57503, 1)]),
  (2415507092167373383, 5, [(2, 1), (3, 1), (296370463, 1)]),
  (94455684953484563055991838558081, 3, [(2415507092167373383, 1)]),
  (5297, 2, [(331, 1)]),
  (2002267, 2, [(5297, 1)]),
  (176127414389, 2, [(2002267, 1)]),
  (3522548287781, 2, [(176127414389, 1)]),
  (304017052525226987, 2, [(3522548287781, 1)]),
  (114918445854535801087, 2, [(304017052525226987, 1)]),
  (97431765622634506378795559, 2, [(114918445854535801087, 1)]),
  (432363203127002885506543172618401, 3, [(97431765622634506378795559, 1)]),
  (613, 2, [(2, 2), (3, 2)]),
  (431406275092353611, 2, [(5, 1), (41, 1), (53, 1), (151, 1), (613, 1)]),
  (2715862005931406599419575483412481, 3, [(431406275092353611, 1)]),
  (8821, 2, [(2, 2), (3, 2), (5, 1)]),
  (1671755143753, 10, [(2, 3), (3, 4), (8821, 1)]),
  (52913698359930154753, 2, [(1671755143753, 1)]),
  (14768784307009061644318236958041601, 3, [(52913698359930154753, 1)]),
  (443, 2, [(2, 1), (13, 1)]),
  (36753053, 2, [(2, 2), (7, 1), (443, 1)]),
  (9749, 2, [(2437, 1)]),
  (116989, 2, [(9749, 1)]),
  (1255525949, 2, [(116989, 1)]),
  (37414057161322375957408148834323969, 11, [(2, 9), (36753053, 1), (1255525949, 1)]),
  (569, 2, [(71, 1)]),
  (109367, 2, [(367, 1)]),
  (317371, 3, [(2, 1), (5, 1), (71, 1)]),
  (33641327, 2, [(317371, 1)]),
  (335631827046798245410603730138717057, 3, [(2, 7), (17, 1), (569, 1), (109367, 1), (33641327, 1)]),
  (2953, 13, [(2, 3), (3, 2)]),
  (1252073, 2, [(2953, 1)]),
  (2150411, 2, [(5, 1), (359, 1)]),
  (4300823, 2, [(2150411, 1)]),
  (8601647, 2, [(4300823, 1)]),
  (64589225536022735560889, 2, [(1252073, 1), (8601647, 1)]),
  (52379240878942186737271918124381, 2, [(64589225536022735560889, 1)]),
  (442499826945303593556473164314770689, 3, [(52379240878942186737271918124381, 1)]),
  (557, 2, [(139, 1)]),
  (66841, 2, [(557, 1)]),
  (38039, 7, [(2, 1), (11, 1), (13, 1)]),
  (76079, 2, [(38039, 1)]),
  (608633, 2, [(76079, 1)]),
  (20528439005046674987321, 3, [(2, 3), (66841, 1), (608633, 1)]),
  (347464358599420020835395247, 2, [(20528439005046674987321, 1)]),
  (63406006407727721042109834220642811713, 3, [(347464358599420020835395247, 1)]),
  (4603, 2, [(2, 1), (3, 1), (13, 1)]),
  (1562147729, 3, [(2, 4), (4603, 1)]),
  (2543176502813, 2, [(1562147729, 1)]),
  (661225890731381, 2, [(2543176502813, 1)]),
  (99183883609707151, 2, [(661225890731381, 1)]),
  (6963303732703100243107, 2, [(99183883609707151, 1)]),
  (275509565477848842604777623828011666349761, 3, [(6963303732703100243107, 1)]),
  (173729, 3, [(2, 5), (61, 1)]),
  (3471452879, 2, [(173729, 1)]),
  (978949711879, 2, [(3471452879, 1)]),
  (41666975891823740503, 2, [(978949711879, 1)]),
  (822778102778697642022315581305197, 2, [(41666975891823740503, 1)]),
  (10559241583796365631935764162530238561452234881, 3, [(822778102778697642022315581305197, 1)]),
  (16925275027, 2, [(3, 3), (11, 2), (41, 1)]),
  (130087663857523, 2, [(16925275027, 1)]),
  (3079, 2, [(3, 4)]),
  (2931209, 2, [(3079, 1)]),
  (5862419, 2, [(2931209, 1)]),
  (1293507577837, 2, [(5862419, 1)]),
  (147459863873419, 2, [(1293507577837, 1)]),
  (129541188208935646963818844716591986208974410651257601, 3, [(130087663857523, 1), (147459863873419, 1)]),
  (223, 2, [(37, 1)]),
  (10608557, 2, [(2, 2), (7, 1), (223, 1)]),
  (100297, 13, [(2, 3), (3, 2), (7, 1)]),
  (1604753, 2, [(100297, 1)]),
  (41723579, 2, [(1604753, 1)]),
  (83447159, 2, [(41723579, 1)]),
  (25353082741699, 2, [(83447159, 1)]),
  (1057372046781162536274034354686893329625329, 7, [(2, 4), (10608557, 1), (25353082741699, 1)]),
  (93461639715357977769163558199606896584051237541638188580280321, 3, [(1057372046781162536274034354686893329625329, 1)])]

theorem certs_ok : checkAll [2] certs = true := by decide +kernel

/-- All numbers of the certificates are prime. -/
theorem certs_prime : ∀ c ∈ certs, c.1.Prime :=
  checkAll_sound (by simp [Nat.prime_two]) certs_ok

end MTT.Period
