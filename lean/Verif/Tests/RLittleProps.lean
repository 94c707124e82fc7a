import Verif.Tests.RLittleTest
import Verif.Tests.RLittleCert

/-!
# `test_rlittle` (C96)
-/

namespace MTT.Tests

open PIS Polynomial Search GF2

variable {mps : MPS}

/-! ## Specification -/

/-- The object in the turn number `i`: in the first turn the object of the constructor after ten calls of `generate`; later the new
parameters come from the numbers `6(i-1)`, …, `6(i-1)+5` of `mt` and the state is that of `seed(1234)`. -/
def rlAt (junk f : ℕ → BitVec 32) : ℕ → RL
  | 0 => stateAt rlOps (rlDefault junk 1234) 10
  | i + 1 => rlSetUp (fun j => f (6 * i + j)) (stateAt rlOps (rlAt junk f i) 1088)

/-- The minimal polynomial of the low bits of the outputs of `r` is irreducible, of degree at least 521. -/
def IrrTurn (r : RL) : Prop := ∃ q, IsSeqMinpoly q (bitAt rlOps r 0) ∧ 521 ≤ q.natDegree ∧ Irreducible q

/-- It is reducible and has an irreducible factor of degree 521. -/
def FacTurn (r : RL) : Prop := ∃ q, IsSeqMinpoly q (bitAt rlOps r 0) ∧ ¬ Irreducible q ∧ ∃ g, Irreducible g ∧ g.natDegree = 521 ∧ g ∣ q

/-- Both kinds have been met up to the turn `m`. -/
def Both (A : ℕ → RL) (m : ℕ) : Prop := (∃ i ≤ m, IrrTurn (A i)) ∧ ∃ i ≤ m, FacTurn (A i)

open Classical in
/-- What one turn should print for the object `r`. -/
def LTurnSpec (r : RL) (t : List Char) : Prop := ∃ q, IsSeqMinpoly q (bitAt rlOps r 0) ∧ q.natDegree ≤ 544 ∧
  t = if q.natDegree < 521 then [] else
    (if 521 < q.natDegree then "deg:".toList ++ Text.dec q.natDegree ++ "\n".toList else []) ++
    (if Irreducible q then "irreducible\n".toList ++ rlParam r.par else
      "reducible\n".toList ++ rlParam r.par ++
        (if ∃ g, Irreducible g ∧ g.natDegree = 521 ∧ g ∣ q then "has a factor of degree 521\n".toList ++ rlParam r.par else []))

/-- The text of the first ten numbers. -/
def headSpec (r : RL) : List Char := (List.range 10).flatMap fun i => Text.hexW 0 (outAt rlOps r i).toNat ++ "\n".toList

/-! ## Lemmas -/

theorem rlHead_spec (n : ℕ) : ∀ r, rlHead n r = (stateAt rlOps r n,
    (List.range n).flatMap fun i => Text.hexW 0 (outAt rlOps r i).toNat ++ "\n".toList) := by
  induction n with
  | zero => intro r; rfl
  | succ n ih =>
    intro r
    rw [rlHead, ih, stateAt_succ', List.range_succ_eq_map, List.flatMap_cons, List.flatMap_map]
    refine Prod.ext rfl ?_
    show _ ++ _ ++ _ = _ ++ _
    congr 1
    apply List.flatMap_congr
    intro i _
    unfold outAt
    rw [Nat.succ_eq_add_one, stateAt_succ']
    rfl

theorem rlState_par (r : RL) (n : ℕ) : (stateAt rlOps r n).par = r.par := by
  induction n with
  | zero => rfl
  | succ n ih => exact ((rlOps_linGen r.par).gen_inv _ ih)

theorem not_both {r : RL} (h1 : IrrTurn r) (h2 : FacTurn r) : False := by
  obtain ⟨q, a1, -, a3⟩ := h1
  obtain ⟨q', b1, b2, -⟩ := h2
  rw [IsSeqMinpoly.unique b1 a1] at b2
  exact b2 a3

theorem exists_lt_succ' {P : ℕ → Prop} (i : ℕ) : (∃ j ≤ i, P j) ↔ (∃ j < i, P j) ∨ P i := by
  constructor
  · rintro ⟨j, hj, h⟩
    rcases Nat.lt_or_ge j i with h' | h'
    · exact .inl ⟨j, h', h⟩
    · have : j = i := by omega
      exact .inr (this ▸ h)
  · rintro (⟨j, hj, h⟩ | h)
    · exact ⟨j, by omega, h⟩
    · exact ⟨i, le_refl _, h⟩

theorem rlittleLoop_spec (hm : MinPolySeqSpec mps) {fuel : ℕ} (hf : 545 ≤ fuel) (junk f : ℕ → BitVec 32) (n : ℕ) :
    ∀ (i : ℕ) (fl : LFlags) (out : List Char), (fl.irreducible = true ↔ ∃ j < i, IrrTurn (rlAt junk f j)) →
    (fl.factor = true ↔ ∃ j < i, FacTurn (rlAt junk f j)) → (fl.factor = true → fl.reducible = true) →
    (fl.irreducible && fl.factor) = false →
    ∃ T : ℕ → List Char, (∀ j < n, LTurnSpec (rlAt junk f (i + j)) (T j)) ∧
      ((∃ m < n, Both (rlAt junk f) (i + m) ∧ (∀ m' < i + m, ¬ Both (rlAt junk f) m') ∧
          rlittleLoop mps fuel f n (6 * i) (rlAt junk f i) fl out = some (true, 6 * (i + m), out ++ (List.range (m + 1)).flatMap T)) ∨
        ((∀ m' < i + n, ¬ Both (rlAt junk f) m') ∧
          rlittleLoop mps fuel f n (6 * i) (rlAt junk f i) fl out = some (false, 6 * (i + n), out ++ (List.range n).flatMap T))) := by
  have before : ∀ (i : ℕ) (fl : LFlags), (fl.irreducible = true ↔ ∃ j < i, IrrTurn (rlAt junk f j)) →
      (fl.factor = true ↔ ∃ j < i, FacTurn (rlAt junk f j)) → (fl.irreducible && fl.factor) = false → ∀ m' < i, ¬ Both (rlAt junk f) m' := by
    rintro i fl h1 h2 h3 m' hm' ⟨⟨a, ha, ha'⟩, b, hb, hb'⟩
    rw [h1.2 ⟨a, by omega, ha'⟩, h2.2 ⟨b, by omega, hb'⟩] at h3
    exact absurd h3 (by decide)
  induction n with
  | zero =>
    intro i fl out h1 h2 _ h4
    exact ⟨fun _ => [], fun j hj => absurd hj (by omega), .inr ⟨before i fl h1 h2 h4, by simp [rlittleLoop]⟩⟩
  | succ n ih =>
    intro i fl out hI hF hR hN
    obtain ⟨q, h1, h2⟩ := minpoly_dim hm (rlOps_linGen (rlAt junk f i).par) (s := rlAt junk f i) rfl (pos := 0) (by decide) finrank_SL.le
    have h1 : minpoly mps rlOps 0 0 (rlAt junk f i) = some (stateAt rlOps (rlAt junk f i) 1088, q) := h1
    have hdeg : q.natDegree ≤ 544 := by
      obtain ⟨g1, g2, g3⟩ := charpoly_hyps (rlT (rlAt junk f i).par) (rlDen (rlAt junk f i))
      have h3 := h2
      rw [bitAt_eq (rlOps_linGen (rlAt junk f i).par) rfl (by decide)] at h3
      have := natDegree_le_of_dvd (h3.2.2 _ (ann_outSeq _ _ g2)) g1.ne_zero
      rw [finrank_SL] at g3
      omega
    have hpar := rlState_par (rlAt junk f i) 1088
    have hnext : rlSetUp (fun j => f (6 * i + j)) (stateAt rlOps (rlAt junk f i) 1088) = rlAt junk f (i + 1) := rfl
    have hdeg_eq : Period.deg q = (q.natDegree : ℤ) := by
      unfold Period.deg
      rw [if_neg h2.1]
    -- one turn that prints `t` and sets the flags to `fl'`
    have step : ∀ (t : List Char) (fl' : LFlags), LTurnSpec (rlAt junk f i) t →
        (fl'.irreducible = true ↔ fl.irreducible = true ∨ IrrTurn (rlAt junk f i)) →
        (fl'.factor = true ↔ fl.factor = true ∨ FacTurn (rlAt junk f i)) → (fl'.factor = true → fl'.reducible = true) →
        rlittleLoop mps fuel f (n + 1) (6 * i) (rlAt junk f i) fl out =
          (if (fl'.reducible && fl'.irreducible && fl'.factor) = true then some (true, 6 * i, out ++ t)
            else rlittleLoop mps fuel f n (6 * i + 6) (rlAt junk f (i + 1)) fl' (out ++ t)) →
        ∃ T : ℕ → List Char, (∀ j < n + 1, LTurnSpec (rlAt junk f (i + j)) (T j)) ∧
          ((∃ m < n + 1, Both (rlAt junk f) (i + m) ∧ (∀ m' < i + m, ¬ Both (rlAt junk f) m') ∧
              rlittleLoop mps fuel f (n + 1) (6 * i) (rlAt junk f i) fl out =
                some (true, 6 * (i + m), out ++ (List.range (m + 1)).flatMap T)) ∨
            ((∀ m' < i + (n + 1), ¬ Both (rlAt junk f) m') ∧
              rlittleLoop mps fuel f (n + 1) (6 * i) (rlAt junk f i) fl out =
                some (false, 6 * (i + (n + 1)), out ++ (List.range (n + 1)).flatMap T))) := by
      intro t fl' ht hI' hF' hR' e
      have hI2 : fl'.irreducible = true ↔ ∃ j < i + 1, IrrTurn (rlAt junk f j) := by
        rw [hI', hI, ← exists_lt_succ' (P := fun j => IrrTurn (rlAt junk f j))]
        simp only [Nat.lt_succ_iff]
      have hF2 : fl'.factor = true ↔ ∃ j < i + 1, FacTurn (rlAt junk f j) := by
        rw [hF', hF, ← exists_lt_succ' (P := fun j => FacTurn (rlAt junk f j))]
        simp only [Nat.lt_succ_iff]
      have hsum : ∀ (T : ℕ → List Char) k, out ++ t ++ (List.range k).flatMap T =
          out ++ (List.range (k + 1)).flatMap (fun j => if j = 0 then t else T (j - 1)) := by
        intro T k
        rw [List.range_succ_eq_map, List.flatMap_cons, List.flatMap_map]
        simp only [Nat.succ_ne_zero, if_false, if_true, Nat.succ_sub_one, List.append_assoc]
      by_cases hc : (fl'.irreducible && fl'.factor) = true
      · -- the loop is left
        rw [Bool.and_eq_true] at hc
        rw [if_pos (by rw [hR' hc.2, hc.1, hc.2]; rfl)] at e
        have hmore : ∀ j, ∃ t, LTurnSpec (rlAt junk f j) t := by
          intro j
          obtain ⟨q, -, h2⟩ := minpoly_dim hm (rlOps_linGen (rlAt junk f j).par) (s := rlAt junk f j) rfl (pos := 0) (by decide) finrank_SL.le
          obtain ⟨g1, g2, g3⟩ := charpoly_hyps (rlT (rlAt junk f j).par) (rlDen (rlAt junk f j))
          have h3 := h2
          rw [bitAt_eq (rlOps_linGen (rlAt junk f j).par) rfl (by decide)] at h3
          have := natDegree_le_of_dvd (h3.2.2 _ (ann_outSeq _ _ g2)) g1.ne_zero
          rw [finrank_SL] at g3
          exact ⟨_, q, h2, by omega, rfl⟩
        choose T hT using hmore
        refine ⟨fun j => if j = 0 then t else T (i + j), fun j _ => ?_, .inl ⟨0, by omega, ?_, before i fl hI hF hN, ?_⟩⟩
        · by_cases hj : j = 0
          · subst hj; exact ht
          · simp only [hj, if_false]; exact hT _
        · obtain ⟨a, ha, ha'⟩ := hI2.1 hc.1
          obtain ⟨b, hb, hb'⟩ := hF2.1 hc.2
          exact ⟨⟨a, by omega, ha'⟩, b, by omega, hb'⟩
        · rw [e, Nat.add_zero]
          simp
      · have hcf : (fl'.irreducible && fl'.factor) = false := by simpa using hc
        rw [if_neg (by rw [Bool.and_assoc, hcf]; simp)] at e
        obtain ⟨T, g1, g2⟩ := ih (i + 1) fl' (out ++ t) hI2 hF2 hR' hcf
        rw [show 6 * i + 6 = 6 * (i + 1) by omega] at e
        refine ⟨fun j => if j = 0 then t else T (j - 1), fun j hj => ?_, ?_⟩
        · cases j with
          | zero => exact ht
          | succ j =>
            have := g1 j (by omega)
            rw [show i + 1 + j = i + (j + 1) by omega] at this
            simpa using this
        · rcases g2 with ⟨m, hm1, hm2, hm3, hm4⟩ | ⟨hm3, hm4⟩
          · refine .inl ⟨m + 1, by omega, ?_, ?_, ?_⟩
            · rwa [show i + (m + 1) = i + 1 + m by omega]
            · rwa [show i + (m + 1) = i + 1 + m by omega]
            · rw [e, hm4, hsum, show i + (m + 1) = i + 1 + m by omega]
          · refine .inr ⟨?_, ?_⟩
            · rwa [show i + (n + 1) = i + 1 + n by omega]
            · rw [e, hm4, hsum, show i + (n + 1) = i + 1 + n by omega]
    by_cases hd : q.natDegree < 521
    · have nI : ¬ IrrTurn (rlAt junk f i) := by
        rintro ⟨q', a1, a2, -⟩
        rw [IsSeqMinpoly.unique a1 h2] at a2
        omega
      have nF : ¬ FacTurn (rlAt junk f i) := by
        rintro ⟨q', a1, -, g, a3, a4, a5⟩
        rw [IsSeqMinpoly.unique a1 h2] at a5
        have := natDegree_le_of_dvd a5 h2.1
        omega
      refine step [] fl ⟨q, h2, hdeg, by rw [if_pos hd]⟩ (by simp [nI]) (by simp [nF]) hR ?_
      rw [if_neg (by rw [Bool.and_assoc, hN]; simp), rlittleLoop, h1]
      have c1 : ¬ Period.deg q > 521 := by rw [hdeg_eq]; omega
      have c2 : Period.deg q < 521 := by rw [hdeg_eq]; omega
      simp only [Option.bind_eq_bind, Option.bind_some, if_neg c1, if_pos c2, hnext, List.append_nil]
    · have c2 : ¬ Period.deg q < 521 := by rw [hdeg_eq]; omega
      have hout : ∀ o : List Char, (if Period.deg q > 521 then o ++ "deg:".toList ++ Text.dec q.natDegree ++ "\n".toList else o) =
          o ++ (if 521 < q.natDegree then "deg:".toList ++ Text.dec q.natDegree ++ "\n".toList else []) := by
        intro o
        by_cases h : 521 < q.natDegree
        · rw [if_pos h, if_pos (by rw [hdeg_eq]; omega)]
          simp only [List.append_assoc]
        · rw [if_neg h, if_neg (by rw [hdeg_eq]; omega), List.append_nil]
      by_cases hi : Irreducible q
      · have tI : IrrTurn (rlAt junk f i) := ⟨q, h2, by omega, hi⟩
        have nF : ¬ FacTurn (rlAt junk f i) := fun h => not_both tI h
        refine step _ { fl with irreducible := true } ⟨q, h2, hdeg, rfl⟩ (by simp [tI]) (by simp [nF]) hR ?_
        rw [rlittleLoop, h1, if_neg hd, if_pos hi]
        have hii : Period.isIrreducible q = true := by simp [Period.isIrreducible, hi]
        simp only [Option.bind_eq_bind, Option.bind_some, hout, if_neg c2, hii, if_true, hpar, hnext]
        simp only [List.append_assoc]
      · obtain ⟨b, r, h3, h4, h5, h6⟩ := Period.hasFactorOfDegree_correct q (degree := 521) (fuel := fuel) (by decide) (by omega)
        have hb : b = true ↔ ∃ g, Irreducible g ∧ g.natDegree = 521 ∧ g ∣ q := by
          constructor
          · intro hb
            exact ⟨r, (h5 hb).1, (h5 hb).2, h4⟩
          · rintro ⟨g, g1, g2, g3⟩
            have := Period.hasFactorOfDegree_half q g h2.1 (degree := 521) (fuel := fuel) (by decide) (by omega) g1 g3 g2 (by omega)
            rw [h3] at this
            exact (congrArg Prod.fst (Option.some.inj this))
        have nI : ¬ IrrTurn (rlAt junk f i) := by
          rintro ⟨q', a1, -, a2⟩
          rw [IsSeqMinpoly.unique a1 h2] at a2
          exact hi a2
        have tF : FacTurn (rlAt junk f i) ↔ b = true := by
          constructor
          · rintro ⟨q', a1, -, a3⟩
            rw [IsSeqMinpoly.unique a1 h2] at a3
            exact hb.2 a3
          · intro h
            exact ⟨q, h2, hi, hb.1 h⟩
        refine step _ (if b then { fl with reducible := true, factor := true } else { fl with reducible := true }) ⟨q, h2, hdeg, rfl⟩
          ?_ ?_ ?_ ?_
        · cases b <;> simp [nI]
        · rw [tF]
          cases b <;> simp
        · cases b <;> simp
        · rw [rlittleLoop, h1, if_neg hd, if_neg hi]
          have hii : Period.isIrreducible q = false := by simp [Period.isIrreducible, hi]
          simp only [Option.bind_eq_bind, Option.bind_some, hout, if_neg c2, hii, Bool.false_eq_true, if_false, h3, hpar, hnext]
          cases b with
          | false =>
            rw [if_neg (fun h => absurd (hb.2 h) (by decide))]
            simp only [List.append_assoc, List.append_nil, Bool.false_eq_true, if_false]
          | true =>
            rw [if_pos (hb.1 rfl)]
            simp only [List.append_assoc, if_true]

/-! ## The program -/

/-- **C96.**  `test_rlittle`: for every stream of numbers and whatever was in the memory before, the program prints ten outputs and then,
turn by turn, what the specification says.  It leaves the endless loop exactly after the first turn up to which both an irreducible polynomial
and a reducible one with a factor of degree 521 have been met (the variable `reducible` plays no part); six numbers are drawn between two
turns. -/
theorem rlittleMain_spec (hm : MinPolySeqSpec mps) {fuel : ℕ} (hf : 545 ≤ fuel) (junk f : ℕ → BitVec 32) (turns : ℕ) :
    ∃ T : ℕ → List Char, (∀ j < turns, LTurnSpec (rlAt junk f j) (T j)) ∧
      ((∃ m < turns, Both (rlAt junk f) m ∧ (∀ m' < m, ¬ Both (rlAt junk f) m') ∧
          rlittleMain mps fuel f junk turns = some (true, 6 * m, headSpec (rlDefault junk 1234) ++ (List.range (m + 1)).flatMap T)) ∨
        ((∀ m' < turns, ¬ Both (rlAt junk f) m') ∧
          rlittleMain mps fuel f junk turns = some (false, 6 * turns, headSpec (rlDefault junk 1234) ++ (List.range turns).flatMap T))) := by
  have h := rlittleLoop_spec hm hf junk f turns 0 ⟨false, false, false⟩ (headSpec (rlDefault junk 1234)) (by simp) (by simp) (by simp) rfl
  unfold rlittleMain
  rw [rlHead_spec]
  simp only [Nat.zero_add] at h
  exact h

theorem bitAt_den {r : RL} {p : RLPar} (hp : r.par = p) : bitAt rlOps r 0 = outSeq (rlT p) (coord 32 0 (rlO p)) (rlDen r) :=
  bitAt_eq (rlOps_linGen p) hp (by decide)

theorem LTurnSpec.unique {r : RL} {t t' : List Char} (h : LTurnSpec r t) (h' : LTurnSpec r t') : t = t' := by
  obtain ⟨q, h1, -, h2⟩ := h
  obtain ⟨q', h1', -, h2'⟩ := h'
  rw [IsSeqMinpoly.unique h1' h1] at h2'
  rw [h2, h2']

/-- The object of a turn, from its parameters. -/
theorem rlAt_den {junk f : ℕ → BitVec 32} {i : ℕ} {p : RLPar} {z : SL} (hp : (rlAt junk f (i + 1)).par = p)
    (hz : ∀ j : Fin 17, rlWord p.mat1 1234 j = (z j).val) :
    bitAt rlOps (rlAt junk f (i + 1)) 0 = outSeq (rlT p) (coord 32 0 (rlO p)) z := by
  rw [bitAt_den hp]
  congr 1
  refine rlSeed_den _ _ _ fun j => ?_
  rw [← hz j]
  exact congrArg (fun p : RLPar => rlWord p.mat1 1234 j) hp

theorem par194 (junk : ℕ → BitVec 32) : (rlAt junk (Options.stream32 5489) (193 + 1)).par = pI := by
  obtain ⟨h, -⟩ := mt_numbers
  show RLPar.mk (Options.stream32 5489 (1158 + 0)) (Options.stream32 5489 (1158 + 1) % 17).toNat (Options.stream32 5489 (1158 + 2) % 32).toNat
    (Options.stream32 5489 (1158 + 3) % 32).toNat (Options.stream32 5489 (1158 + 4) % 32).toNat (Options.stream32 5489 (1158 + 5) % 32).toNat = _
  rw [h 0 _ rfl, h 1 _ rfl, h 2 _ rfl, h 3 _ rfl, h 4 _ rfl, h 5 _ rfl]
  decide +kernel

theorem par672 (junk : ℕ → BitVec 32) : (rlAt junk (Options.stream32 5489) (671 + 1)).par = pD := by
  obtain ⟨-, h⟩ := mt_numbers
  show RLPar.mk (Options.stream32 5489 (4026 + 0)) (Options.stream32 5489 (4026 + 1) % 17).toNat (Options.stream32 5489 (4026 + 2) % 32).toNat
    (Options.stream32 5489 (4026 + 3) % 32).toNat (Options.stream32 5489 (4026 + 4) % 32).toNat (Options.stream32 5489 (4026 + 5) % 32).toNat = _
  rw [h 0 _ rfl, h 1 _ rfl, h 2 _ rfl, h 3 _ rfl, h 4 _ rfl, h 5 _ rfl]
  decide +kernel

theorem turn194 (hm : MinPolySeqSpec mps) (junk : ℕ → BitVec 32) : IrrTurn (rlAt junk (Options.stream32 5489) 194) := by
  obtain ⟨q, -, h2⟩ := minpoly_dim hm (rlOps_linGen _) (s := rlAt junk (Options.stream32 5489) 194) rfl (pos := 0) (by decide) finrank_SL.le
  have h3 := h2
  rw [rlAt_den (par194 junk) (z := unpack zI) (by decide)] at h3
  have e := minpolyI h3
  exact ⟨q, h2, by rw [e, irrI.2]; decide, by rw [e]; exact irrI.1⟩

theorem not_irreducible_of {q F : (ZMod 2)[X]} {a : BitSeq} (h : IsSeqMinpoly q a) (hF : Irreducible F) (hd : F ∣ q) (hn : ¬ Ann F a) :
    ¬ Irreducible q := by
  intro hi
  rcases hi.dvd_iff.1 hd with h1 | h1
  · exact hF.not_isUnit h1
  · rw [eq_of_associated h1] at h
    exact hn h.2.1

theorem turn672 (hm : MinPolySeqSpec mps) (junk : ℕ → BitVec 32) : FacTurn (rlAt junk (Options.stream32 5489) 672) := by
  obtain ⟨q, -, h2⟩ := minpoly_dim hm (rlOps_linGen _) (s := rlAt junk (Options.stream32 5489) 672) rfl (pos := 0) (by decide) finrank_SL.le
  have h3 := h2
  rw [rlAt_den (par672 junk) (z := unpack zD) (by decide)] at h3
  have hF := primD rfl
  have hi := Primitive2.irreducible (by decide) hF
  have hd := dvd_of_out _ _ hi wD_eq wD_ann wD_out h3.2.1
  exact ⟨q, h2, not_irreducible_of h3 hi hd notF, _, hi, hF.1, hd⟩

/-- **C96.**  With the numbers that `MersenneTwister mt` really delivers (seed 5489) the program ends, after at most 673 turns: the
polynomial of turn 194 is irreducible of degree 543, and turn 672 has the parameters that test_period.cpp uses for its polynomial with a
factor of degree 521. -/
theorem rlittle_ends (hm : MinPolySeqSpec mps) {fuel : ℕ} (hf : 545 ≤ fuel) (junk : ℕ → BitVec 32) :
    ∃ m ≤ 672, ∃ text, ∀ turns > m, rlittleMain mps fuel (Options.stream32 5489) junk turns = some (true, 6 * m, text) := by
  have hB : Both (rlAt junk (Options.stream32 5489)) 672 := ⟨⟨194, by omega, turn194 hm junk⟩, 672, le_refl _, turn672 hm junk⟩
  obtain ⟨T, h1, ⟨m, a1, a2, a3, -⟩ | ⟨a1, -⟩⟩ := rlittleMain_spec hm hf junk (Options.stream32 5489) 673
  · refine ⟨m, by omega, headSpec (rlDefault junk 1234) ++ (List.range (m + 1)).flatMap T, fun turns ht => ?_⟩
    obtain ⟨T', h1', ⟨m', b1, b2, b3, b4⟩ | ⟨b1, -⟩⟩ := rlittleMain_spec hm hf junk (Options.stream32 5489) turns
    · have e : m' = m := by
        by_contra hne
        rcases Nat.lt_or_ge m' m with h | h
        · exact a3 _ h b2
        · exact b3 m (by omega) a2
      subst e
      have eT : (List.range (m' + 1)).flatMap T' = (List.range (m' + 1)).flatMap T := by
        apply List.flatMap_congr
        intro j hj
        rw [List.mem_range] at hj
        exact (h1' j (by omega)).unique (h1 j (by omega))
      rw [b4, eT]
    · exact absurd a2 (b1 m ht)
  · exact absurd hB (a1 672 (by omega))

/-! ## A stream for which the program does not end -/

theorem rlF_zero (x y : BitVec 32) : rlF ⟨0, 0, 0, 0, 0, 0⟩ x y = 0 := by
  unfold rlF lr rl
  simp
  rfl

/-- **C96.**  Nothing bounds the number of turns: with a source that delivers only zeros the program never ends (and prints nothing after
the first turn). -/
theorem rlittle_endless (hm : MinPolySeqSpec mps) {fuel : ℕ} (hf : 545 ≤ fuel) (junk : ℕ → BitVec 32) (turns : ℕ) :
    ∃ text, rlittleMain mps fuel (fun _ => 0) junk turns = some (false, 6 * turns, text) := by
  have hq : ∀ i q, IsSeqMinpoly q (bitAt rlOps (rlAt junk (fun _ => 0) (i + 1)) 0) → q = 1 := by
    intro i q h
    have hp : (rlAt junk (fun _ => 0) (i + 1)).par = ⟨0, 0, 0, 0, 0, 0⟩ := rfl
    rw [bitAt_den hp] at h
    have h0 : Ann 1 (outSeq (rlT ⟨0, 0, 0, 0, 0, 0⟩) (coord 32 0 (rlO ⟨0, 0, 0, 0, 0, 0⟩)) (rlDen (rlAt junk (fun _ => 0) (i + 1)))) := by
      rw [ann_iff, map_one, Module.End.one_apply]
      funext k
      show coord 32 0 (rlO ⟨0, 0, 0, 0, 0, 0⟩) _ = 0
      show bits (rlF ⟨0, 0, 0, 0, 0, 0⟩ _ _) 31 = 0
      rw [rlF_zero]
      decide
    exact isUnit_iff_one.1 (isUnit_of_dvd_one (h.2.2 _ h0))
  have hn : ∀ m, ¬ Both (rlAt junk (fun _ => 0)) m := by
    rintro m ⟨⟨a, -, ha⟩, b, -, hb⟩
    have ha0 : a = 0 := by
      cases a with
      | zero => rfl
      | succ a =>
        obtain ⟨q, h1, h2, -⟩ := ha
        rw [hq a q h1, natDegree_one] at h2
        omega
    have hb0 : b = 0 := by
      cases b with
      | zero => rfl
      | succ b =>
        obtain ⟨q, h1, -, g, g1, -, g3⟩ := hb
        rw [hq b q h1] at g3
        exact absurd (isUnit_of_dvd_one g3) g1.not_isUnit
    subst ha0; subst hb0
    exact not_both ha hb
  obtain ⟨T, -, ⟨m, -, h, -⟩ | ⟨-, h⟩⟩ := rlittleMain_spec hm hf junk (fun _ => 0) turns
  · exact absurd h (hn m)
  · exact ⟨_, h⟩

/-! ## Concrete cases -/

example : rlParam pD = "mat1:80903834\npos:7\nsh1:1\nsh2:31\nsh3:26\nsh4:26\n".toList := by decide +kernel

-- the ten numbers that are printed first
example : headSpec (rlDefault (fun _ => 0) 1234) =
    "bfababf4\nf48baf61\n5acd1c34\n155305e1\na97d690\n78c64b44\nbc9270c\n7b76bc17\n3911e9f5\n2023a6e6\n".toList := by decide +kernel

-- an implementation of `MinPolySeq` that meets its specification exists
example : ∃ mps : MPS, MinPolySeqSpec mps := minPolySeqSpec_sat

end MTT.Tests
