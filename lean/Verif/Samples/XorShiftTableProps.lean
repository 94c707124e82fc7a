import Verif.GF2.NotEquidist
import Verif.Samples.XorShiftTable
import Verif.Samples.XorShiftFixedProps

/-!
# C97: the exact tables of equidistribution of the two published xorshift generators, and the text the programs print
-/

namespace MTT.XorShift

open Polynomial PIS Search GF2

/-! ## The certificates -/

/-- The output as a number. -/
def outX (p : Par) (s : S) : ℕ := (T (parSt p) s).2.2.2.val.toNat

theorem isWordX (p : Par) : IsWord (O (parSt p)) (outX p) 32 := by
  intro s
  refine ⟨BitVec.isLt _, fun i hi => ?_⟩
  show bits (T (parSt p) s).2.2.2.val i = _
  unfold bits outX
  rw [BitVec.getMsbD_eq_getLsbD, BitVec.getLsbD]
  simp [hi]

/-- Ranks in the kernel. -/
abbrev posX (p : Par) (ps : List (ℕ × ℕ)) : Prop := seqK fS (fun s => T (parSt p) s) (outX p) 256 (Wd.of 1, 0, 0, 0)
  (fun ws => pairsOK 32 128 ws ps) = true

/-- Relations in the kernel. -/
abbrev negX (p : Par) (ps : List ((ℕ × ℕ) × List (ℕ × ℕ))) : Prop := seqK fS (fun s => T (parSt p) s) (outX p) 256 (Wd.of 1, 0, 0, 0)
  (fun ws => relsOK 32 128 ws ps) = true

theorem pos1_0 : posX par1 [(1, 128), (2, 64)] := by decide +kernel
theorem pos1_1 : posX par1 [(3, 42), (5, 24), (32, 4)] := by decide +kernel

/-- The relations of `par1`. -/
def rels1 : List ((ℕ × ℕ) × List (ℕ × ℕ)) :=
  [((4, 25), [(0, 2), (3, 2), (3, 3), (4, 3), (6, 0), (6, 2), (8, 2), (9, 0), (9, 1), (9, 2), (9, 3), (10, 1), (10, 3), (11, 2), (11, 3), (12, 2), (15, 2), (15, 3), (16, 2), (16, 3), (18, 0), (18, 2), (20, 2), (22, 0), (22, 2), (24, 2)]),
    ((6, 5), [(0, 0), (0, 5), (3, 0), (4, 0)])]

theorem neg1 : negX par1 rels1 := by decide +kernel

theorem pos5_0 : posX par5 [(1, 128), (2, 63)] := by decide +kernel
theorem pos5_1 : posX par5 [(3, 42), (4, 31), (5, 25)] := by decide +kernel
theorem pos5_2 : posX par5 [(6, 21), (7, 18), (8, 15), (9, 14), (10, 12)] := by decide +kernel
theorem pos5_3 : posX par5 [(11, 11), (12, 10), (13, 9), (16, 8), (17, 7), (18, 6), (20, 5), (32, 4)] := by decide +kernel

/-- The relations of `par5`. -/
def rels5 : List ((ℕ × ℕ) × List (ℕ × ℕ)) :=
  [((2, 64), [(0, 1), (1, 1), (2, 1), (3, 0), (4, 1), (5, 0), (6, 1), (9, 0), (12, 0), (12, 1), (13, 1), (16, 1), (17, 0), (17, 1), (18, 1), (19, 1), (20, 0), (20, 1), (21, 0), (22, 0), (22, 1), (23, 0), (24, 0), (25, 1), (26, 0), (26, 1), (27, 1), (28, 0), (28, 1), (29, 0), (30, 0), (30, 1), (31, 1), (32, 1), (35, 0), (37, 0), (37, 1), (39, 0), (40, 0), (41, 1), (43, 1), (44, 0), (44, 1), (45, 0), (45, 1), (46, 0), (48, 0), (48, 1), (50, 0), (51, 0), (52, 1), (53, 1), (54, 0), (55, 1), (56, 0), (58, 0), (60, 0), (61, 0), (63, 0)]),
    ((4, 32), [(0, 1), (0, 3), (1, 0), (1, 2), (1, 3), (2, 0), (2, 1), (3, 0), (3, 1), (5, 0), (5, 1), (5, 2), (6, 0), (6, 1), (6, 3), (7, 3), (8, 0), (8, 1), (8, 3), (9, 0), (9, 2), (9, 3), (10, 0), (11, 0), (11, 1), (13, 1), (14, 0), (14, 2), (15, 0), (16, 0), (16, 2), (16, 3), (17, 0), (17, 1), (17, 3), (18, 1), (18, 2), (18, 3), (19, 0), (20, 3), (21, 1), (21, 2), (22, 2), (23, 0), (23, 2), (23, 3), (24, 0), (24, 1), (24, 3), (25, 1), (25, 2), (26, 0), (26, 1), (26, 2), (27, 2), (27, 3), (28, 1), (28, 3), (29, 2), (30, 0), (30, 1), (30, 2), (31, 2)]),
    ((8, 16), [(0, 0), (0, 1), (0, 6), (0, 7), (1, 0), (1, 4), (1, 6), (2, 0), (2, 1), (2, 3), (2, 4), (2, 6), (2, 7), (3, 0), (3, 2), (3, 3), (3, 4), (3, 6), (4, 4), (4, 5), (4, 6), (4, 7), (5, 3), (5, 4), (5, 5), (5, 6), (5, 7), (6, 2), (7, 2), (7, 5), (7, 7), (8, 0), (8, 1), (8, 3), (8, 4), (8, 7), (9, 1), (9, 2), (9, 3), (9, 7), (10, 0), (10, 1), (10, 4), (11, 0), (11, 1), (11, 2), (11, 3), (11, 5), (11, 7), (12, 1), (12, 5), (12, 6), (13, 1), (13, 3), (13, 5), (13, 7), (14, 2), (14, 4), (14, 5), (15, 0), (15, 2), (15, 4), (15, 7)]),
    ((14, 9), [(0, 0), (0, 1), (0, 2), (0, 12), (0, 13), (1, 2), (1, 13), (3, 2), (3, 6), (3, 8), (4, 8), (5, 2), (6, 0), (6, 4), (6, 13), (7, 13), (8, 0), (8, 4)]),
    ((18, 7), [(0, 1), (0, 8), (0, 10), (0, 12), (0, 15), (0, 16), (1, 6), (1, 10), (1, 17), (2, 1), (2, 12), (3, 0), (3, 1), (3, 3), (3, 6), (3, 7), (3, 10), (3, 13), (3, 14), (3, 15), (4, 1), (4, 13), (4, 15), (5, 0), (5, 1), (5, 3), (5, 6), (5, 7), (5, 10), (5, 14), (6, 1)]),
    ((19, 6), [(0, 1), (0, 4), (0, 6), (0, 7), (0, 10), (0, 12), (0, 13), (0, 15), (0, 17), (0, 18), (1, 1), (1, 4), (1, 12), (1, 15), (3, 1), (3, 4), (3, 13), (3, 14), (3, 17), (4, 13), (4, 14), (4, 17), (5, 1), (5, 4)]),
    ((21, 5), [(0, 0), (0, 11), (3, 0), (3, 20), (4, 0)])]

theorem neg5 : negX par5 rels5 := by decide +kernel

theorem posX_sound {p : Par} {ps : List (ℕ × ℕ)} (h : posX p ps) (q : ℕ × ℕ) (hq : q ∈ ps) : Equidist (T (parSt p)) (O (parSt p)) ⊤ q.1 q.2 := by
  intro a
  obtain ⟨s, -, h1⟩ := equidist_of_check (fun s k => fS_eq s k) (fun _ => rfl) (isWordX p) h q hq a
  exact ⟨s, trivial, h1⟩

theorem negX_sound {p : Par} (hp : p = par1 ∨ p = par5) {ps : List ((ℕ × ℕ) × List (ℕ × ℕ))} (h : negX p ps)
    (q : (ℕ × ℕ) × List (ℕ × ℕ)) (hq : q ∈ ps) : ¬ Equidist (T (parSt p)) (O (parSt p)) ⊤ q.1.1 q.1.2 := by
  have := not_equidist_of_check finrank_S (fun s k => fS_eq s k) (fun _ => rfl) (isWordX p) h q hq
  have h1 : ((Wd.of 1, 0, 0, 0) : S) ≠ 0 := by decide
  obtain ⟨χ, hχ, hT⟩ := exists_prim p hp
  rwa [cyc_top (n := 128) (by omega) finrank_S h1 (fun k => period_of_primitive (by omega) hχ (hT _) h1 k)] at this

/-! ## The tables -/

/-- The dimensions for 5, 14, 1; index `v-1`. -/
def table1 : List ℕ := [128, 64, 42, 24, 24, 4, 4, 4, 4, 4, 4, 4, 4, 4, 4, 4, 4, 4, 4, 4, 4, 4, 4, 4, 4, 4, 4, 4, 4, 4, 4, 4]

/-- The dimensions for 20, 11, 7; index `v-1`. -/
def table5 : List ℕ := [128, 63, 42, 31, 25, 21, 18, 15, 14, 12, 11, 10, 9, 8, 8, 8, 7, 6, 5, 5, 4, 4, 4, 4, 4, 4, 4, 4, 4, 4, 4, 4]

theorem exact_of {p : Par} {tab : List ℕ} {pos : List (ℕ × ℕ)} {neg : List ((ℕ × ℕ) × List (ℕ × ℕ))}
    (hpos : ∀ q ∈ pos, Equidist (T (parSt p)) (O (parSt p)) ⊤ q.1 q.2)
    (hneg : ∀ q ∈ neg, ¬ Equidist (T (parSt p)) (O (parSt p)) ⊤ q.1.1 q.1.2)
    (h : ∀ v ∈ Finset.Icc 1 32, (∃ q ∈ pos, v ≤ q.1 ∧ tab.getD (v - 1) 0 ≤ q.2) ∧
      (128 < (tab.getD (v - 1) 0 + 1) * v ∨ ∃ q ∈ neg, q.1.1 ≤ v ∧ q.1.2 ≤ tab.getD (v - 1) 0 + 1)) (v : ℕ) (h1 : 1 ≤ v) (h2 : v ≤ 32) :
    IsGreatest {k | Equidist (T (parSt p)) (O (parSt p)) ⊤ v k} (tab.getD (v - 1) 0) := by
  obtain ⟨⟨q, hq, g1, g2⟩, g3⟩ := h v (Finset.mem_Icc.2 ⟨h1, h2⟩)
  refine ⟨equidist_mono (hpos q hq) g1 g2, fun k hk => ?_⟩
  by_contra hlt
  have hk' : Equidist (T (parSt p)) (O (parSt p)) ⊤ v (tab.getD (v - 1) 0 + 1) := equidist_mono hk le_rfl (by omega)
  rcases g3 with g3 | ⟨r, hr, g4, g5⟩
  · have := equidist_le finrank_S hk'
    omega
  · exact hneg r hr (equidist_mono hk' g4 g5)

theorem exact1 (v : ℕ) (h1 : 1 ≤ v) (h2 : v ≤ 32) : IsGreatest {k | Equidist (T (parSt par1)) (O (parSt par1)) ⊤ v k} (table1.getD (v - 1) 0) := by
  refine exact_of (pos := [(1, 128), (2, 64)] ++ [(3, 42), (5, 24), (32, 4)]) (neg := rels1) (fun q hq => ?_) (fun q hq => negX_sound (Or.inl rfl) neg1 q hq) (by decide) v h1 h2
  simp only [List.mem_append] at hq
  rcases hq with hq | hq
  · exact posX_sound pos1_0 q hq
  · exact posX_sound pos1_1 q hq

theorem exact5 (v : ℕ) (h1 : 1 ≤ v) (h2 : v ≤ 32) : IsGreatest {k | Equidist (T (parSt par5)) (O (parSt par5)) ⊤ v k} (table5.getD (v - 1) 0) := by
  refine exact_of (pos := [(1, 128), (2, 63)] ++ [(3, 42), (4, 31), (5, 25)] ++ [(6, 21), (7, 18), (8, 15), (9, 14), (10, 12)] ++ [(11, 11), (12, 10), (13, 9), (16, 8), (17, 7), (18, 6), (20, 5), (32, 4)]) (neg := rels5) (fun q hq => ?_) (fun q hq => negX_sound (Or.inr rfl) neg5 q hq) (by decide) v h1 h2
  simp only [List.mem_append] at hq
  rcases hq with ((hq | hq) | hq) | hq
  · exact posX_sound pos5_0 q hq
  · exact posX_sound pos5_1 q hq
  · exact posX_sound pos5_2 q hq
  · exact posX_sound pos5_3 q hq

/-- The table of a stream of words: for every accuracy `v` every pattern of `tab[v-1]` blocks of `v` bits that is not zero occurs in the
leading bits of consecutive words within one period, and some pattern of one block more, which is not zero, never occurs. -/
def HasTable (x : ℕ → BitVec 32) (tab : List ℕ) : Prop :=
  ∀ v, 1 ≤ v → v ≤ 32 →
    (∀ a : ℕ → BitVec 32, (∃ t < tab.getD (v - 1) 0, ∃ i < v, (a t).getMsbD i = true) →
      ∃ n < 2 ^ 128 - 1, ∀ t < tab.getD (v - 1) 0, ∀ i < v, (x (n + t)).getMsbD i = (a t).getMsbD i) ∧
    ∃ a : ℕ → BitVec 32, (∃ t < tab.getD (v - 1) 0 + 1, ∃ i < v, (a t).getMsbD i = true) ∧
      ∀ n, ∃ t < tab.getD (v - 1) 0 + 1, ∃ i < v, (x (n + t)).getMsbD i ≠ (a t).getMsbD i

theorem bits_eq_iff {a b : BitVec 32} {i : ℕ} : bits a i = bits b i ↔ a.getMsbD i = b.getMsbD i := by
  unfold bits
  cases a.getMsbD i <;> cases b.getMsbD i <;> simp

theorem exists_word (f : V) : ∃ a : BitVec 32, ∀ i < 32, bits a i = f i := by
  classical
  obtain ⟨N, -, h⟩ := exists_bits 32 (fun j => decide (f (31 - j) = 1))
  refine ⟨BitVec.ofNat 32 N, fun i hi => ?_⟩
  unfold bits
  rw [BitVec.getMsbD_eq_getLsbD, BitVec.getLsbD, BitVec.toNat_ofNat, Nat.testBit_mod_two_pow, h _ (by omega)]
  have : 31 - (32 - 1 - i) = i := by omega
  rw [this]
  have h2 : 32 - 1 - i < 32 := by omega
  simp only [hi, h2, decide_true, Bool.true_and, decide_eq_true_eq]
  generalize f i = z
  revert z
  decide

theorem hasTable_of {gen : St → St × BitVec 32} {p : Par} (hp : p = par1 ∨ p = par5)
    (h1 : ∀ s, den (gen s).1 = T (parSt p) (den s)) (h2 : ∀ s, bits (gen s).2 = O (parSt p) (den s)) {tab : List ℕ}
    (ht : ∀ v, 1 ≤ v → v ≤ 32 → IsGreatest {k | Equidist (T (parSt p)) (O (parSt p)) ⊤ v k} (tab.getD (v - 1) 0))
    {s : St} (hs : isZero s = false) : HasTable (stream gen s) tab := by
  intro v hv1 hv2
  have hden : den s ≠ 0 := by rw [Ne, ← isZero_iff, hs]; simp
  have hst : ∀ n, bits (stream gen s n) = O (parSt p) ((T (parSt p) ^ n) (den s)) := fun n => by
    rw [← iter_den h1 s n, ← h2]; rfl
  obtain ⟨χ, hχ, hT⟩ := exists_prim p hp
  obtain ⟨g1, g2⟩ := ht v hv1 hv2
  constructor
  · intro a ha
    obtain ⟨u, -, h3⟩ := g1 (fun t => bits (a t))
    have hu : u ≠ 0 := by
      rintro rfl
      obtain ⟨t, ht, i, hi, h4⟩ := ha
      have := h3 t ht i hi
      rw [map_zero, map_zero] at this
      simp [bits, h4] at this
    obtain ⟨n, hn, h4⟩ := orbit_surj (by omega) finrank_S hχ hT hden hu
    refine ⟨n, hn, fun t ht i hi => bits_eq_iff.1 ?_⟩
    rw [hst, Nat.add_comm n t, pow_add, Module.End.mul_apply, h4]
    exact h3 t ht i hi
  · have h3 : ¬ Equidist (T (parSt p)) (O (parSt p)) ⊤ v (tab.getD (v - 1) 0 + 1) := fun h => absurd (g2 h) (by omega)
    unfold Equidist at h3
    push Not at h3
    obtain ⟨a, h3⟩ := h3
    choose b hb using fun t => exists_word (a t)
    refine ⟨b, ?_, fun n => ?_⟩
    · obtain ⟨t, ht, i, hi, h4⟩ := h3 0 trivial
      refine ⟨t, ht, i, hi, ?_⟩
      rw [map_zero, map_zero, ← hb t i (by omega)] at h4
      by_contra h5
      apply h4
      unfold bits
      rw [Bool.not_eq_true] at h5
      rw [h5]; rfl
    · obtain ⟨t, ht, i, hi, h4⟩ := h3 ((T (parSt p) ^ n) (den s)) trivial
      refine ⟨t, ht, i, hi, fun h5 => h4 ?_⟩
      rw [← Module.End.mul_apply, ← pow_add, Nat.add_comm t n, ← hst, ← hb t i (by omega)]
      exact bits_eq_iff.2 h5

/-- **C97.**  The exact tables of the generators of xorshift-1.cpp and xorshift-2.cpp (5, 14, 1), of xorshift-5.cpp and of xorshift128.c (20, 11, 7),
from every state that is not zero. -/
theorem tables_exact {s : St} (hs : isZero s = false) {x : X128} (hx : ¬ (x.x = 0 ∧ x.y = 0 ∧ x.z = 0 ∧ x.w = 0)) :
    HasTable (stream generate1 s) table1 ∧ HasTable (stream generate5 s) table5 ∧ HasTable (stream generate128 x) table5 := by
  have h0 : isZero (toSt x) = false := by
    rw [← Bool.not_eq_true]
    intro h
    apply hx
    simpa [isZero, toSt, and_assoc] using h
  rw [stream128]
  exact ⟨hasTable_of (p := par1) (Or.inl rfl) (fun s => linGen1.gen_den s trivial) (fun s => linGen1.gen_out s trivial) exact1 hs,
    hasTable_of (p := par5) (Or.inr rfl) (fun s => linGen5.gen_den s trivial) (fun s => linGen5.gen_out s trivial) exact5 hs,
    hasTable_of (p := par5) (Or.inr rfl) (fun s => linGen5.gen_den s trivial) (fun s => linGen5.gen_out s trivial) exact5 h0⟩

/-! ## What is printed -/

theorem tableLines_congr (b : ℕ) {f g : ℕ → ℕ} (n : ℕ) : ∀ i, (∀ j, i ≤ j → j < i + n → f j = g j) → tableLines b f i n = tableLines b g i n := by
  induction n with
  | zero => intro i _; rfl
  | succ n ih =>
    intro i h
    rw [tableLines, tableLines, ih (i + 1) (fun j h1 h2 => h j (by omega) (by omega)), tableLine, tableLine, h i le_rfl (by omega)]

theorem main_of {G : GenOps St 32} (hb : G.bitSize = 128) {p : Par} {tab : List ℕ} {d : ℤ}
    (hr : ∀ junk veq0, ∃ r, getAllEquidist G Util.calc1posWrap32 (seed 1 junk) 32 128 (32 * (33 * 128) + 33) veq0 = .ok r ∧ Report p r.veq r.sum)
    (ht : ∀ v, 1 ≤ v → v ≤ 32 → IsGreatest {k | Equidist (T (parSt p)) (O (parSt p)) ⊤ v k} (tab.getD (v - 1) 0))
    (hd : ∑ v ∈ Finset.Icc 1 32, ((128 / v : ℕ) - (tab.getD (v - 1) 0 : ℤ)) = d) (junk : St) (veq0 : ℕ → ℕ) :
    tableMain G junk veq0 (32 * (33 * 128) + 33) =
      some (tableLines 128 (fun i => tab.getD i 0) 0 32 ++ "delta:" ++ toString d ++ "\n", 0) := by
  obtain ⟨r, e1, e2, e3⟩ := hr junk veq0
  have hv : ∀ v, 1 ≤ v → v ≤ 32 → r.veq (v - 1) = tab.getD (v - 1) 0 := fun v h1 h2 => (e2 v h1 h2).unique (ht v h1 h2)
  unfold tableMain
  rw [hb, e1]
  have hs : r.sum = d := by
    rw [e3, ← hd]
    refine Finset.sum_congr rfl fun v hvv => ?_
    obtain ⟨h1, h2⟩ := Finset.mem_Icc.1 hvv
    rw [hv v h1 h2]
  dsimp only
  rw [hs, tableLines_congr 128 (f := r.veq) (g := fun i => tab.getD i 0) 32 0 (fun j _ h2 => hv (j + 1) (by omega) (by omega))]

/-- **C97.**  xorshift-2.cpp (and slide/xorshift-22.cpp) prints exactly this text and returns 0, whatever the object and the array held before. -/
theorem xorshift2_text (junk : St) (veq0 : ℕ → ℕ) : tableMain ops1 junk veq0 (32 * (33 * 128) + 33) = some (
    "k( 1):128  d( 1):  0\n" ++
    "k( 2): 64  d( 2):  0\n" ++
    "k( 3): 42  d( 3):  0\n" ++
    "k( 4): 24  d( 4):  8\n" ++
    "k( 5): 24  d( 5):  1\n" ++
    "k( 6):  4  d( 6): 17\n" ++
    "k( 7):  4  d( 7): 14\n" ++
    "k( 8):  4  d( 8): 12\n" ++
    "k( 9):  4  d( 9): 10\n" ++
    "k(10):  4  d(10):  8\n" ++
    "k(11):  4  d(11):  7\n" ++
    "k(12):  4  d(12):  6\n" ++
    "k(13):  4  d(13):  5\n" ++
    "k(14):  4  d(14):  5\n" ++
    "k(15):  4  d(15):  4\n" ++
    "k(16):  4  d(16):  4\n" ++
    "k(17):  4  d(17):  3\n" ++
    "k(18):  4  d(18):  3\n" ++
    "k(19):  4  d(19):  2\n" ++
    "k(20):  4  d(20):  2\n" ++
    "k(21):  4  d(21):  2\n" ++
    "k(22):  4  d(22):  1\n" ++
    "k(23):  4  d(23):  1\n" ++
    "k(24):  4  d(24):  1\n" ++
    "k(25):  4  d(25):  1\n" ++
    "k(26):  4  d(26):  0\n" ++
    "k(27):  4  d(27):  0\n" ++
    "k(28):  4  d(28):  0\n" ++
    "k(29):  4  d(29):  0\n" ++
    "k(30):  4  d(30):  0\n" ++
    "k(31):  4  d(31):  0\n" ++
    "k(32):  4  d(32):  0\n" ++
    "delta:117\n", 0) := by
  rw [main_of (G := ops1) rfl (fun j v => (main25_prints j v).1) exact1 (d := 117) (by decide) junk veq0]
  decide +kernel

/-- **C97.**  xorshift-5.cpp prints exactly this text and returns 0, whatever the object and the array held before. -/
theorem xorshift5_text (junk : St) (veq0 : ℕ → ℕ) : tableMain ops5 junk veq0 (32 * (33 * 128) + 33) = some (
    "k( 1):128  d( 1):  0\n" ++
    "k( 2): 63  d( 2):  1\n" ++
    "k( 3): 42  d( 3):  0\n" ++
    "k( 4): 31  d( 4):  1\n" ++
    "k( 5): 25  d( 5):  0\n" ++
    "k( 6): 21  d( 6):  0\n" ++
    "k( 7): 18  d( 7):  0\n" ++
    "k( 8): 15  d( 8):  1\n" ++
    "k( 9): 14  d( 9):  0\n" ++
    "k(10): 12  d(10):  0\n" ++
    "k(11): 11  d(11):  0\n" ++
    "k(12): 10  d(12):  0\n" ++
    "k(13):  9  d(13):  0\n" ++
    "k(14):  8  d(14):  1\n" ++
    "k(15):  8  d(15):  0\n" ++
    "k(16):  8  d(16):  0\n" ++
    "k(17):  7  d(17):  0\n" ++
    "k(18):  6  d(18):  1\n" ++
    "k(19):  5  d(19):  1\n" ++
    "k(20):  5  d(20):  1\n" ++
    "k(21):  4  d(21):  2\n" ++
    "k(22):  4  d(22):  1\n" ++
    "k(23):  4  d(23):  1\n" ++
    "k(24):  4  d(24):  1\n" ++
    "k(25):  4  d(25):  1\n" ++
    "k(26):  4  d(26):  0\n" ++
    "k(27):  4  d(27):  0\n" ++
    "k(28):  4  d(28):  0\n" ++
    "k(29):  4  d(29):  0\n" ++
    "k(30):  4  d(30):  0\n" ++
    "k(31):  4  d(31):  0\n" ++
    "k(32):  4  d(32):  0\n" ++
    "delta:13\n", 0) := by
  rw [main_of (G := ops5) rfl (fun j v => (main25_prints j v).2) exact5 (d := 13) (by decide) junk veq0]
  decide +kernel

/-- **C97.**  xorshift128_main.c prints exactly this text, whatever the uninitialised array holds. -/
theorem xorshift128_text (junk : Fin 4 → BitVec 32) : main128 junk =
    " d721f5c 8cb9200d 7a0cdf31 e2c39b68 \n" ++
    "c8f075ca d1624f57 38def2c8 ebba1816 \n" ++
    "21128197 fafc472e 46ca6483 35f639c5 \n" ++
    "1dd23c21 c7368161 c4e3211b 506340fd \n" ++
    "d29812b4 8a03e0c7 5a23ce2e f233af82 \n" ++
    "183a0653 e925d525 ffafce77 774eee8a \n" ++
    "567661e5 8e25853a 5d5a4ba1 e7708056 \n" ++
    " 6a33b20 17eb76b0 f2f23b96 2826efa0 \n" ++
    "cd6220f6 8ec46bab 579cbd2a 9a59e555 \n" ++
    "12d4be82 5636bf4e 11c7b9be dffe1271 \n" := by
  rw [main128, init_junk junk (fun _ => 0)]
  decide +kernel

/-! ## Concrete cases -/

-- five words in a row of the generator 20, 11, 7 do not take all values, in their first 21 bits
example : ∃ a : ℕ → BitVec 32, ∀ n, ∃ t < 5, ∃ i < 21, (stream generate128 (init (fun _ => 0) 1) (n + t)).getMsbD i ≠ (a t).getMsbD i := by
  obtain ⟨a, -, h⟩ := ((tables_exact (s := seed 1 ⟨0, 0, 0, 0, 0, 0, 0, 0⟩) (by decide) (init_ne_zero (fun _ => 0) 1)).2.2 21 (by decide) (by decide)).2
  exact ⟨a, h⟩

example : setw 3 (toString (64 : ℕ)) = " 64" ∧ hex8 0xd721f5c = " d721f5c " := by decide +kernel

end MTT.XorShift
