import Verif.Mexp.Small

/-!
# Lucas–Lehmer tests that fail (generated)
-/

set_option Elab.async false

namespace MTT.Mexp

theorem comp1 : ([101, 103].all fun p => !Nat.beq (residue p) 0) = true := by decide +kernel
theorem comp2 : ([109, 137].all fun p => !Nat.beq (residue p) 0) = true := by decide +kernel
theorem comp3 : ([139, 149].all fun p => !Nat.beq (residue p) 0) = true := by decide +kernel
theorem comp4 : ([199, 227].all fun p => !Nat.beq (residue p) 0) = true := by decide +kernel
theorem comp5 : ([257, 271].all fun p => !Nat.beq (residue p) 0) = true := by decide +kernel
theorem comp6 : ([293, 331].all fun p => !Nat.beq (residue p) 0) = true := by decide +kernel
theorem comp7 : ([347, 349].all fun p => !Nat.beq (residue p) 0) = true := by decide +kernel
theorem comp8 : ([379, 401].all fun p => !Nat.beq (residue p) 0) = true := by decide +kernel
theorem comp9 : ([409, 421].all fun p => !Nat.beq (residue p) 0) = true := by decide +kernel
theorem comp10 : ([433, 503].all fun p => !Nat.beq (residue p) 0) = true := by decide +kernel
theorem comp11 : ([523, 541].all fun p => !Nat.beq (residue p) 0) = true := by decide +kernel
theorem comp12 : ([563, 599].all fun p => !Nat.beq (residue p) 0) = true := by decide +kernel
theorem comp13 : ([613, 631].all fun p => !Nat.beq (residue p) 0) = true := by decide +kernel
theorem comp14 : ([647, 691].all fun p => !Nat.beq (residue p) 0) = true := by decide +kernel
theorem comp15 : ([727, 733].all fun p => !Nat.beq (residue p) 0) = true := by decide +kernel
theorem comp16 : ([739, 751].all fun p => !Nat.beq (residue p) 0) = true := by decide +kernel
theorem comp17 : ([787, 809].all fun p => !Nat.beq (residue p) 0) = true := by decide +kernel
theorem comp18 : ([823, 919].all fun p => !Nat.beq (residue p) 0) = true := by decide +kernel
theorem comp19 : ([971, 983].all fun p => !Nat.beq (residue p) 0) = true := by decide +kernel
theorem comp20 : ([991, 997].all fun p => !Nat.beq (residue p) 0) = true := by decide +kernel
theorem comp21 : ([1061, 1069].all fun p => !Nat.beq (residue p) 0) = true := by decide +kernel
theorem comp22 : ([1109, 1123].all fun p => !Nat.beq (residue p) 0) = true := by decide +kernel
theorem comp23 : ([1151, 1163].all fun p => !Nat.beq (residue p) 0) = true := by decide +kernel
theorem comp24 : ([1171, 1237].all fun p => !Nat.beq (residue p) 0) = true := by decide +kernel
theorem comp25 : ([1259, 1277].all fun p => !Nat.beq (residue p) 0) = true := by decide +kernel
theorem comp26 : ([1283, 1289].all fun p => !Nat.beq (residue p) 0) = true := by decide +kernel
theorem comp27 : ([1291, 1297].all fun p => !Nat.beq (residue p) 0) = true := by decide +kernel
theorem comp28 : ([1301, 1307].all fun p => !Nat.beq (residue p) 0) = true := by decide +kernel
theorem comp29 : ([1319, 1409].all fun p => !Nat.beq (residue p) 0) = true := by decide +kernel
theorem comp30 : ([1427, 1429].all fun p => !Nat.beq (residue p) 0) = true := by decide +kernel
theorem comp31 : ([1471, 1483].all fun p => !Nat.beq (residue p) 0) = true := by decide +kernel
theorem comp32 : ([1487, 1549].all fun p => !Nat.beq (residue p) 0) = true := by decide +kernel
theorem comp33 : ([1553, 1567].all fun p => !Nat.beq (residue p) 0) = true := by decide +kernel
theorem comp34 : ([1571, 1597].all fun p => !Nat.beq (residue p) 0) = true := by decide +kernel
theorem comp35 : ([1619, 1621].all fun p => !Nat.beq (residue p) 0) = true := by decide +kernel
theorem comp36 : ([1657, 1669].all fun p => !Nat.beq (residue p) 0) = true := by decide +kernel
theorem comp37 : ([1699, 1733].all fun p => !Nat.beq (residue p) 0) = true := by decide +kernel
theorem comp38 : ([1747, 1753].all fun p => !Nat.beq (residue p) 0) = true := by decide +kernel
theorem comp39 : ([1759, 1787].all fun p => !Nat.beq (residue p) 0) = true := by decide +kernel
theorem comp40 : ([1831, 1867].all fun p => !Nat.beq (residue p) 0) = true := by decide +kernel
theorem comp41 : ([1873, 1889].all fun p => !Nat.beq (residue p) 0) = true := by decide +kernel
theorem comp42 : ([1907, 1949].all fun p => !Nat.beq (residue p) 0) = true := by decide +kernel
theorem comp43 : ([1951, 2029].all fun p => !Nat.beq (residue p) 0) = true := by decide +kernel
theorem comp44 : ([2053, 2089].all fun p => !Nat.beq (residue p) 0) = true := by decide +kernel
theorem comp45 : ([2129, 2137].all fun p => !Nat.beq (residue p) 0) = true := by decide +kernel
theorem comp46 : ([2143, 2153].all fun p => !Nat.beq (residue p) 0) = true := by decide +kernel
theorem comp47 : ([2161, 2221].all fun p => !Nat.beq (residue p) 0) = true := by decide +kernel
theorem comp48 : ([2237, 2239].all fun p => !Nat.beq (residue p) 0) = true := by decide +kernel
theorem comp49 : ([2243, 2267].all fun p => !Nat.beq (residue p) 0) = true := by decide +kernel
theorem comp50 : ([2269, 2273].all fun p => !Nat.beq (residue p) 0) = true := by decide +kernel
theorem comp51 : ([2287, 2293].all fun p => !Nat.beq (residue p) 0) = true := by decide +kernel
theorem comp52 : ([2311, 2341].all fun p => !Nat.beq (residue p) 0) = true := by decide +kernel
theorem comp53 : ([2357, 2371].all fun p => !Nat.beq (residue p) 0) = true := by decide +kernel
theorem comp54 : ([2377, 2381].all fun p => !Nat.beq (residue p) 0) = true := by decide +kernel
theorem comp55 : ([2423, 2441].all fun p => !Nat.beq (residue p) 0) = true := by decide +kernel
theorem comp56 : ([2467, 2477].all fun p => !Nat.beq (residue p) 0) = true := by decide +kernel
theorem comp57 : ([2521, 2551].all fun p => !Nat.beq (residue p) 0) = true := by decide +kernel
theorem comp58 : ([2557, 2647].all fun p => !Nat.beq (residue p) 0) = true := by decide +kernel
theorem comp59 : ([2659, 2671].all fun p => !Nat.beq (residue p) 0) = true := by decide +kernel
theorem comp60 : ([2683, 2693].all fun p => !Nat.beq (residue p) 0) = true := by decide +kernel
theorem comp61 : ([2713, 2719].all fun p => !Nat.beq (residue p) 0) = true := by decide +kernel
theorem comp62 : ([2729, 2777].all fun p => !Nat.beq (residue p) 0) = true := by decide +kernel
theorem comp63 : ([2789, 2791].all fun p => !Nat.beq (residue p) 0) = true := by decide +kernel
theorem comp64 : ([2797, 2801].all fun p => !Nat.beq (residue p) 0) = true := by decide +kernel
theorem comp65 : ([2803, 2851].all fun p => !Nat.beq (residue p) 0) = true := by decide +kernel
theorem comp66 : ([2887, 2927].all fun p => !Nat.beq (residue p) 0) = true := by decide +kernel
theorem comp67 : ([2969, 2971].all fun p => !Nat.beq (residue p) 0) = true := by decide +kernel
theorem comp68 : ([3019, 3049].all fun p => !Nat.beq (residue p) 0) = true := by decide +kernel
theorem comp69 : ([3061, 3079].all fun p => !Nat.beq (residue p) 0) = true := by decide +kernel
theorem comp70 : ([3089, 3109].all fun p => !Nat.beq (residue p) 0) = true := by decide +kernel
theorem comp71 : ([3203, 3209].all fun p => !Nat.beq (residue p) 0) = true := by decide +kernel
theorem comp72 : ([3251, 3259].all fun p => !Nat.beq (residue p) 0) = true := by decide +kernel
theorem comp73 : ([3271, 3301].all fun p => !Nat.beq (residue p) 0) = true := by decide +kernel
theorem comp74 : ([3307, 3313].all fun p => !Nat.beq (residue p) 0) = true := by decide +kernel
theorem comp75 : ([3331, 3343].all fun p => !Nat.beq (residue p) 0) = true := by decide +kernel
theorem comp76 : ([3371, 3389].all fun p => !Nat.beq (residue p) 0) = true := by decide +kernel
theorem comp77 : ([3413, 3461].all fun p => !Nat.beq (residue p) 0) = true := by decide +kernel
theorem comp78 : ([3467, 3469].all fun p => !Nat.beq (residue p) 0) = true := by decide +kernel
theorem comp79 : ([3547, 3559].all fun p => !Nat.beq (residue p) 0) = true := by decide +kernel
theorem comp80 : ([3583, 3607].all fun p => !Nat.beq (residue p) 0) = true := by decide +kernel
theorem comp81 : ([3631, 3637].all fun p => !Nat.beq (residue p) 0) = true := by decide +kernel
theorem comp82 : ([3671, 3673].all fun p => !Nat.beq (residue p) 0) = true := by decide +kernel
theorem comp83 : ([3691, 3697].all fun p => !Nat.beq (residue p) 0) = true := by decide +kernel
theorem comp84 : ([3709, 3739].all fun p => !Nat.beq (residue p) 0) = true := by decide +kernel
theorem comp85 : ([3769, 3821].all fun p => !Nat.beq (residue p) 0) = true := by decide +kernel
theorem comp86 : ([3847, 3877].all fun p => !Nat.beq (residue p) 0) = true := by decide +kernel
theorem comp87 : ([3881, 3889].all fun p => !Nat.beq (residue p) 0) = true := by decide +kernel
theorem comp88 : ([3919, 3943].all fun p => !Nat.beq (residue p) 0) = true := by decide +kernel
theorem comp89 : ([4007, 4027].all fun p => !Nat.beq (residue p) 0) = true := by decide +kernel
theorem comp90 : ([4049, 4051].all fun p => !Nat.beq (residue p) 0) = true := by decide +kernel
theorem comp91 : ([4091, 4093].all fun p => !Nat.beq (residue p) 0) = true := by decide +kernel
theorem comp92 : ([4111, 4157].all fun p => !Nat.beq (residue p) 0) = true := by decide +kernel
theorem comp93 : ([4159, 4177].all fun p => !Nat.beq (residue p) 0) = true := by decide +kernel
theorem comp94 : ([4219, 4231].all fun p => !Nat.beq (residue p) 0) = true := by decide +kernel
theorem comp95 : ([4241, 4259].all fun p => !Nat.beq (residue p) 0) = true := by decide +kernel
theorem comp96 : ([4261, 4283].all fun p => !Nat.beq (residue p) 0) = true := by decide +kernel
theorem comp97 : ([4339, 4349].all fun p => !Nat.beq (residue p) 0) = true := by decide +kernel
theorem comp98 : ([4357, 4363].all fun p => !Nat.beq (residue p) 0) = true := by decide +kernel
theorem comp99 : ([4397, 4409].all fun p => !Nat.beq (residue p) 0) = true := by decide +kernel
theorem comp100 : ([4421, 4481].all fun p => !Nat.beq (residue p) 0) = true := by decide +kernel
theorem comp101 : ([4493, 4523].all fun p => !Nat.beq (residue p) 0) = true := by decide +kernel
theorem comp102 : ([4567, 4583].all fun p => !Nat.beq (residue p) 0) = true := by decide +kernel
theorem comp103 : ([4591, 4621].all fun p => !Nat.beq (residue p) 0) = true := by decide +kernel
theorem comp104 : ([4643, 4651].all fun p => !Nat.beq (residue p) 0) = true := by decide +kernel
theorem comp105 : ([4663, 4679].all fun p => !Nat.beq (residue p) 0) = true := by decide +kernel
theorem comp106 : ([4703, 4721].all fun p => !Nat.beq (residue p) 0) = true := by decide +kernel
theorem comp107 : ([4729, 4733].all fun p => !Nat.beq (residue p) 0) = true := by decide +kernel
theorem comp108 : ([4783, 4799].all fun p => !Nat.beq (residue p) 0) = true := by decide +kernel
theorem comp109 : ([4817, 4831].all fun p => !Nat.beq (residue p) 0) = true := by decide +kernel
theorem comp110 : ([4877, 4889].all fun p => !Nat.beq (residue p) 0) = true := by decide +kernel
theorem comp111 : ([4937, 4951].all fun p => !Nat.beq (residue p) 0) = true := by decide +kernel
theorem comp112 : ([4973, 4987].all fun p => !Nat.beq (residue p) 0) = true := by decide +kernel
theorem comp113 : ([5023, 5077].all fun p => !Nat.beq (residue p) 0) = true := by decide +kernel
theorem comp114 : ([5081, 5099].all fun p => !Nat.beq (residue p) 0) = true := by decide +kernel
theorem comp115 : ([5113, 5153].all fun p => !Nat.beq (residue p) 0) = true := by decide +kernel
theorem comp116 : ([5309, 5333].all fun p => !Nat.beq (residue p) 0) = true := by decide +kernel
theorem comp117 : ([5351, 5387].all fun p => !Nat.beq (residue p) 0) = true := by decide +kernel
theorem comp118 : ([5407, 5419].all fun p => !Nat.beq (residue p) 0) = true := by decide +kernel
theorem comp119 : ([5443, 5471].all fun p => !Nat.beq (residue p) 0) = true := by decide +kernel
theorem comp120 : ([5477, 5479].all fun p => !Nat.beq (residue p) 0) = true := by decide +kernel
theorem comp121 : ([5503, 5527].all fun p => !Nat.beq (residue p) 0) = true := by decide +kernel
theorem comp122 : ([5573, 5581].all fun p => !Nat.beq (residue p) 0) = true := by decide +kernel
theorem comp123 : ([5591, 5641].all fun p => !Nat.beq (residue p) 0) = true := by decide +kernel
theorem comp124 : ([5647, 5653].all fun p => !Nat.beq (residue p) 0) = true := by decide +kernel
theorem comp125 : ([5669, 5689].all fun p => !Nat.beq (residue p) 0) = true := by decide +kernel
theorem comp126 : ([5693, 5701].all fun p => !Nat.beq (residue p) 0) = true := by decide +kernel
theorem comp127 : ([5737, 5749].all fun p => !Nat.beq (residue p) 0) = true := by decide +kernel
theorem comp128 : ([5783, 5813].all fun p => !Nat.beq (residue p) 0) = true := by decide +kernel
theorem comp129 : ([5839, 5851].all fun p => !Nat.beq (residue p) 0) = true := by decide +kernel
theorem comp130 : ([5857, 5869].all fun p => !Nat.beq (residue p) 0) = true := by decide +kernel
theorem comp131 : ([5879, 5897].all fun p => !Nat.beq (residue p) 0) = true := by decide +kernel
theorem comp132 : ([5923, 5953].all fun p => !Nat.beq (residue p) 0) = true := by decide +kernel
theorem comp133 : ([5987, 6007].all fun p => !Nat.beq (residue p) 0) = true := by decide +kernel
theorem comp134 : ([6037, 6043].all fun p => !Nat.beq (residue p) 0) = true := by decide +kernel
theorem comp135 : ([6047, 6053].all fun p => !Nat.beq (residue p) 0) = true := by decide +kernel
theorem comp136 : ([6073, 6079].all fun p => !Nat.beq (residue p) 0) = true := by decide +kernel
theorem comp137 : ([6089, 6091].all fun p => !Nat.beq (residue p) 0) = true := by decide +kernel
theorem comp138 : ([6133, 6151].all fun p => !Nat.beq (residue p) 0) = true := by decide +kernel
theorem comp139 : ([6211, 6217].all fun p => !Nat.beq (residue p) 0) = true := by decide +kernel
theorem comp140 : ([6221, 6229].all fun p => !Nat.beq (residue p) 0) = true := by decide +kernel
theorem comp141 : ([6247, 6257].all fun p => !Nat.beq (residue p) 0) = true := by decide +kernel
theorem comp142 : ([6269, 6299].all fun p => !Nat.beq (residue p) 0) = true := by decide +kernel
theorem comp143 : ([6329, 6337].all fun p => !Nat.beq (residue p) 0) = true := by decide +kernel
theorem comp144 : ([6359, 6361].all fun p => !Nat.beq (residue p) 0) = true := by decide +kernel
theorem comp145 : ([6451, 6469].all fun p => !Nat.beq (residue p) 0) = true := by decide +kernel
theorem comp146 : ([6547, 6571].all fun p => !Nat.beq (residue p) 0) = true := by decide +kernel
theorem comp147 : ([6577, 6581].all fun p => !Nat.beq (residue p) 0) = true := by decide +kernel
theorem comp148 : ([6599, 6659].all fun p => !Nat.beq (residue p) 0) = true := by decide +kernel
theorem comp149 : ([6679, 6701].all fun p => !Nat.beq (residue p) 0) = true := by decide +kernel
theorem comp150 : ([6709, 6733].all fun p => !Nat.beq (residue p) 0) = true := by decide +kernel
theorem comp151 : ([6763, 6791].all fun p => !Nat.beq (residue p) 0) = true := by decide +kernel
theorem comp152 : ([6823, 6833].all fun p => !Nat.beq (residue p) 0) = true := by decide +kernel
theorem comp153 : ([6857, 6907].all fun p => !Nat.beq (residue p) 0) = true := by decide +kernel
theorem comp154 : ([6911, 6971].all fun p => !Nat.beq (residue p) 0) = true := by decide +kernel
theorem comp155 : ([6991, 7013].all fun p => !Nat.beq (residue p) 0) = true := by decide +kernel
theorem comp156 : ([7069, 7109].all fun p => !Nat.beq (residue p) 0) = true := by decide +kernel
theorem comp157 : ([7121, 7127].all fun p => !Nat.beq (residue p) 0) = true := by decide +kernel
theorem comp158 : ([7177, 7213].all fun p => !Nat.beq (residue p) 0) = true := by decide +kernel
theorem comp159 : ([7229, 7237].all fun p => !Nat.beq (residue p) 0) = true := by decide +kernel
theorem comp160 : ([7243, 7247].all fun p => !Nat.beq (residue p) 0) = true := by decide +kernel
theorem comp161 : ([7309, 7321].all fun p => !Nat.beq (residue p) 0) = true := by decide +kernel

/-- The exponents tested in this file. -/
def compList1 : List (List Nat) :=
  [[101, 103], [109, 137], [139, 149], [199, 227], [257, 271], [293, 331], [347, 349], [379, 401], [409, 421],
   [433, 503], [523, 541], [563, 599], [613, 631], [647, 691], [727, 733], [739, 751], [787, 809], [823, 919],
   [971, 983], [991, 997], [1061, 1069], [1109, 1123], [1151, 1163], [1171, 1237], [1259, 1277], [1283, 1289],
   [1291, 1297], [1301, 1307], [1319, 1409], [1427, 1429], [1471, 1483], [1487, 1549], [1553, 1567], [1571, 1597],
   [1619, 1621], [1657, 1669], [1699, 1733], [1747, 1753], [1759, 1787], [1831, 1867], [1873, 1889], [1907, 1949],
   [1951, 2029], [2053, 2089], [2129, 2137], [2143, 2153], [2161, 2221], [2237, 2239], [2243, 2267], [2269, 2273],
   [2287, 2293], [2311, 2341], [2357, 2371], [2377, 2381], [2423, 2441], [2467, 2477], [2521, 2551], [2557, 2647],
   [2659, 2671], [2683, 2693], [2713, 2719], [2729, 2777], [2789, 2791], [2797, 2801], [2803, 2851], [2887, 2927],
   [2969, 2971], [3019, 3049], [3061, 3079], [3089, 3109], [3203, 3209], [3251, 3259], [3271, 3301], [3307, 3313],
   [3331, 3343], [3371, 3389], [3413, 3461], [3467, 3469], [3547, 3559], [3583, 3607], [3631, 3637], [3671, 3673],
   [3691, 3697], [3709, 3739], [3769, 3821], [3847, 3877], [3881, 3889], [3919, 3943], [4007, 4027], [4049, 4051],
   [4091, 4093], [4111, 4157], [4159, 4177], [4219, 4231], [4241, 4259], [4261, 4283], [4339, 4349], [4357, 4363],
   [4397, 4409], [4421, 4481], [4493, 4523], [4567, 4583], [4591, 4621], [4643, 4651], [4663, 4679], [4703, 4721],
   [4729, 4733], [4783, 4799], [4817, 4831], [4877, 4889], [4937, 4951], [4973, 4987], [5023, 5077], [5081, 5099],
   [5113, 5153], [5309, 5333], [5351, 5387], [5407, 5419], [5443, 5471], [5477, 5479], [5503, 5527], [5573, 5581],
   [5591, 5641], [5647, 5653], [5669, 5689], [5693, 5701], [5737, 5749], [5783, 5813], [5839, 5851], [5857, 5869],
   [5879, 5897], [5923, 5953], [5987, 6007], [6037, 6043], [6047, 6053], [6073, 6079], [6089, 6091], [6133, 6151],
   [6211, 6217], [6221, 6229], [6247, 6257], [6269, 6299], [6329, 6337], [6359, 6361], [6451, 6469], [6547, 6571],
   [6577, 6581], [6599, 6659], [6679, 6701], [6709, 6733], [6763, 6791], [6823, 6833], [6857, 6907], [6911, 6971],
   [6991, 7013], [7069, 7109], [7121, 7127], [7177, 7213], [7229, 7237], [7243, 7247], [7309, 7321]]

theorem compList1_ok : ∀ l ∈ compList1, (l.all fun p => !Nat.beq (residue p) 0) = true := by
  unfold compList1
  simp only [List.forall_mem_cons]
  exact ⟨comp1, comp2, comp3, comp4, comp5, comp6, comp7, comp8, comp9, comp10, comp11, comp12, comp13, comp14, comp15,
   comp16, comp17, comp18, comp19, comp20, comp21, comp22, comp23, comp24, comp25, comp26, comp27, comp28, comp29,
   comp30, comp31, comp32, comp33, comp34, comp35, comp36, comp37, comp38, comp39, comp40, comp41, comp42, comp43,
   comp44, comp45, comp46, comp47, comp48, comp49, comp50, comp51, comp52, comp53, comp54, comp55, comp56, comp57,
   comp58, comp59, comp60, comp61, comp62, comp63, comp64, comp65, comp66, comp67, comp68, comp69, comp70, comp71,
   comp72, comp73, comp74, comp75, comp76, comp77, comp78, comp79, comp80, comp81, comp82, comp83, comp84, comp85,
   comp86, comp87, comp88, comp89, comp90, comp91, comp92, comp93, comp94, comp95, comp96, comp97, comp98, comp99,
   comp100, comp101, comp102, comp103, comp104, comp105, comp106, comp107, comp108, comp109, comp110, comp111,
   comp112, comp113, comp114, comp115, comp116, comp117, comp118, comp119, comp120, comp121, comp122, comp123,
   comp124, comp125, comp126, comp127, comp128, comp129, comp130, comp131, comp132, comp133, comp134, comp135,
   comp136, comp137, comp138, comp139, comp140, comp141, comp142, comp143, comp144, comp145, comp146, comp147,
   comp148, comp149, comp150, comp151, comp152, comp153, comp154, comp155, comp156, comp157, comp158, comp159,
   comp160, comp161, by simp⟩

end MTT.Mexp
