import Verif.Anni.Modes
import Verif.Samples.SFMTToolsProps
import Verif.Samples.DSFMTToolsProps

/-!
# C98: the programs test_period of the SFMT creator and calc_period of the dSFMT creator
-/

namespace MTT.Anni

theorem takeWhile_all {α : Type} {p : α → Bool} : ∀ {l : List α}, (∀ a ∈ l, p a = true) → l.takeWhile p = l
  | [], _ => rfl
  | a :: l, h => by
    rw [List.takeWhile_cons, if_pos (h a (by simp)), takeWhile_all fun b hb => h b (List.mem_cons_of_mem a hb)]

end MTT.Anni

namespace MTT.SFMT

open Polynomial PIS Search W128 Parity Anni Text

variable {n mexp : ℕ} {mps : MPS}

/-- The words that an object with parameters `p` produces from the ring `v`: the last word of the ring is word 0, the next
one produced is word 1, and so on. -/
def wordAt (n : ℕ) (p : Par) (v : Fin n → Wd 128) (k : ℕ) : W128 := at' ((T1 n p ^ k) v) (n - 1)

/-- Bit `b` of the words (0 is the least significant) is not constantly 0 in the component of `f`. -/
def Seen (n : ℕ) (p : Par) (f : (ZMod 2)[X]) (b : ℕ) : Prop := ∃ v ∈ Large n p f, ∃ k, (wordAt n p v k).getLsbD b = true

/-! ### Start modes and weight modes -/

theorem four_bit (a b c d : W128) (i j k l x : ℕ) (hx : x < 128) :
    (mk32 (u a i) (u b j) (u c k) (u d l)).getLsbD x =
      if x < 32 then a.getLsbD (32 * i + x) else if x < 64 then b.getLsbD (32 * j + (x - 32))
      else if x < 96 then c.getLsbD (32 * k + (x - 64)) else d.getLsbD (32 * l + (x - 96)) := by
  rw [mk32_bit, u_bit, u_bit, u_bit, u_bit]
  split_ifs
  · rw [decide_eq_true (by omega), Bool.true_and]
  · rw [decide_eq_true (by omega), Bool.true_and]
  · rw [decide_eq_true (by omega), Bool.true_and]
  · rw [decide_eq_true (by omega), Bool.true_and]

theorem select_bit {i : ℕ} (hi : i < 4) (y z : W128) {b : ℕ} (hb : b < 128) :
    (select i y z).getLsbD b = if i = 0 ∨ 128 ≤ b + 32 * i then z.getLsbD ((b + 32 * i) % 128) else y.getLsbD (b + 32 * i) := by
  unfold select
  interval_cases i
  · rw [if_pos (by decide), if_pos (.inl rfl), four_bit _ _ _ _ _ _ _ _ _ hb]
    split_ifs <;> (congr 1; omega)
  · rw [if_neg (by decide), if_pos (by decide), four_bit _ _ _ _ _ _ _ _ _ hb]
    simp only [one_ne_zero, OfNat.ofNat_ne_zero, false_or]
    split_ifs <;> first | omega | (congr 1; omega)
  · rw [if_neg (by decide), if_neg (by decide), if_pos (by decide), four_bit _ _ _ _ _ _ _ _ _ hb]
    simp only [one_ne_zero, OfNat.ofNat_ne_zero, false_or]
    split_ifs <;> first | omega | (congr 1; omega)
  · rw [if_neg (by decide), if_neg (by decide), if_neg (by decide), four_bit _ _ _ _ _ _ _ _ _ hb]
    simp only [one_ne_zero, OfNat.ofNat_ne_zero, false_or]
    split_ifs <;> first | omega | (congr 1; omega)

theorem merge_bit {j : ℕ} (h1 : 1 ≤ j) (h4 : j ≤ 4) (r q : W128) {b : ℕ} (hb : b < 128) :
    (merge j r q).getLsbD b = if decide (32 * j ≤ b) then q.getLsbD b else r.getLsbD b := by
  unfold merge
  interval_cases j
  · rw [if_neg (by decide), if_neg (by decide), if_neg (by decide), four_bit _ _ _ _ _ _ _ _ _ hb]
    simp only [decide_eq_true_eq]
    split_ifs <;> first | omega | (congr 1; omega)
  · rw [if_neg (by decide), if_neg (by decide), if_pos (by decide), four_bit _ _ _ _ _ _ _ _ _ hb]
    simp only [decide_eq_true_eq]
    split_ifs <;> first | omega | (congr 1; omega)
  · rw [if_neg (by decide), if_pos (by decide), four_bit _ _ _ _ _ _ _ _ _ hb]
    simp only [decide_eq_true_eq]
    split_ifs <;> first | omega | (congr 1; omega)
  · rw [if_pos (by decide), if_neg (by simp only [decide_eq_true_eq]; omega)]

/-- The weight mode only decides which bits of the output are those of the previous output. -/
theorem sim {Inv : St → Prop} (hInv : ∀ s, Inv s → s.weightMode = 4) {j : ℕ} (h1 : 1 ≤ j) (h4 : j ≤ 4) :
    Sim (rops n mexp) Inv (fun s => { s with weightMode := j }) (fun s => s.previous) (fun b => decide (32 * j ≤ b)) where
  gen _ := rfl
  add _ _ := rfl
  zero _ := rfl
  one _ _ := rfl
  parity _ := rfl
  prev_gen s hs := by
    show _ = merge (nextState s).weightMode _ _
    rw [show (nextState s).weightMode = 4 from hInv s hs]
    rfl
  out s pos hs hp := by
    have h : ((rops n mexp).generate s).2 = ((rops n mexp).generate s).1.previous := by
      show merge (nextState s).weightMode _ _ = _
      rw [show (nextState s).weightMode = 4 from hInv s hs]
      rfl
    rw [h]
    exact merge_bit h1 h4 _ _ hp
  low := decide_eq_false (by omega)

theorem word_period {p : Par} (h3 : 3 ≤ n) (hpos : 1 ≤ p.pos1) (hn : p.pos1 < n) (hp : ParOK p) (v : Fin n → Wd 128) (k : ℕ) :
    ∃ k', wordAt n p v (k' + 1) = wordAt n p v k := by
  obtain ⟨N, h1, h2⟩ := Search.exists_period (T1_bijective h3 hpos hn hp).1 v
  refine ⟨k + N - 1, ?_⟩
  unfold wordAt
  rw [show k + N - 1 + 1 = k + N by omega, pow_add, Module.End.mul_apply, h2]

/-- What the output of start mode `i` sees of the component. -/
theorem seenAt_iff {p : Par} (h3 : 3 ≤ n) (hpos : 1 ≤ p.pos1) (hn : p.pos1 < n) (hp : ParOK p) (f : (ZMod 2)[X]) {i : ℕ}
    (hi : i < 4) {b : ℕ} (hb : b < 128) :
    SeenAt 128 (n * 128) (unit n) (T n ⟨p, i, 4, false⟩) (O n ⟨p, i, 4, false⟩) f b ↔ Seen n p f ((b + 32 * i) % 128) := by
  have hout : ∀ (v : Fin n → Wd 128) (k : ℕ), O n ⟨p, i, 4, false⟩ ((T n ⟨p, i, 4, false⟩ ^ k) ((v, 0) : S n)) (128 - 1 - b) ≠ 0 ↔
      (select i (wordAt n p v k) (wordAt n p v (k + 1))).getLsbD b = true := by
    intro v k
    have h1 := aeval_ring (c := ⟨p, i, 4, false⟩) rfl (X ^ k) v
    rw [map_pow, map_pow, aeval_X, aeval_X] at h1
    rw [h1]
    have h2 : selOf ⟨p, i, 4, false⟩ ((T1 n p ^ k) v) = select i (wordAt n p v k) (wordAt n p v (k + 1)) := by
      unfold selOf wordAt
      rw [pow_succ', Module.End.mul_apply, at_T1 (by omega)]
    show bits (out ⟨p, i, 4, false⟩ (((T1 n p ^ k) v, 0) : S n)) (128 - 1 - b) ≠ 0 ↔ _
    unfold out
    rw [show keep 4 = 0 from rfl, show ~~~ (0 : W128) = BitVec.allOnes 128 by decide, BitVec.and_allOnes,
      show ((0 : Wd 128).val) = (0 : W128) from rfl, show ∀ y : W128, y ^^^ (0 : W128) = y from fun y => BitVec.xor_zero, h2]
    unfold bits
    rw [BitVec.getMsbD_eq_getLsbD, decide_eq_true (by omega), Bool.true_and, show 128 - 1 - (128 - 1 - b) = b by omega]
    cases (select i (wordAt n p v k) (wordAt n p v (k + 1))).getLsbD b <;> simp
  constructor
  · rintro ⟨x, x1, x2, k, x3⟩
    rw [M_full, mem_full] at x1
    obtain ⟨v, x'⟩ := x
    dsimp only at x1
    subst x1
    rw [aeval_ring rfl] at x2
    rw [hout, select_bit hi _ _ hb] at x3
    refine ⟨v, congrArg Prod.fst x2, ?_⟩
    split at x3
    · exact ⟨k + 1, x3⟩
    · exact ⟨k, by rw [Nat.mod_eq_of_lt (by omega)]; exact x3⟩
  · rintro ⟨v, hv, k, hk⟩
    refine ⟨(v, 0), by rw [M_full, mem_full], by rw [aeval_ring rfl, LinearMap.mem_ker.1 hv]; rfl, ?_⟩
    by_cases hz : i = 0 ∨ 128 ≤ b + 32 * i
    · obtain ⟨k', hk'⟩ := word_period h3 hpos hn hp v k
      refine ⟨k', (hout v k').2 ?_⟩
      rw [select_bit hi _ _ hb, if_pos hz, hk']
      exact hk
    · refine ⟨k, (hout v k).2 ?_⟩
      rw [select_bit hi _ _ hb, if_neg hz]
      rwa [Nat.mod_eq_of_lt (by omega)] at hk

/-- The state of an object in start mode `i`. -/
theorem dim_of_isolated (hbig : n * 128 < 2 * mexp) {p : Par} {i : ℤ} {f : (ZMod 2)[X]} (hf : Irreducible f)
    (hdeg : f.natDegree = mexp) {t : St}
    (ht : Isolated (rops n mexp) (fun s => Inv n s ∧ cfg s = ⟨p, i, 4, false⟩) (den n) (T n ⟨p, i, 4, false⟩) (unit n) t f) :
    Module.finrank (ZMod 2) (Large n p f) = mexp := by
  obtain ⟨⟨t1, t2⟩, -, t3⟩ := ht
  unfold cfg at t2
  rw [Cfg.mk.injEq] at t2
  obtain ⟨c1, -, c3, -⟩ := t2
  have hg : Inv1 n mexp { t with startMode := 0, rev := false, mexp := mexp } :=
    ⟨⟨t1.three, t1.size, t1.index, t1.pos_pos, t1.pos, t1.ok⟩, rfl, c3, rfl, rfl⟩
  have h := (cyc_large hg hbig hf hdeg ?_).2.2
  · rw [← c1]; exact h
  · refine ⟨t3.1, fun r => ?_⟩
    rw [← t3.2 r]
    show aeval (T n ⟨t.param, 0, 4, false⟩) r (den n t) = 0 ↔ _
    rw [c1, den_ring c3, aeval_ring rfl, aeval_ring rfl]

/-- **C98.**  Every start mode with every weight mode, the weights descending. -/
theorem periodModes_all : periodModes.length = 16 ∧ ∀ k : ℕ, k < 16 → periodModes[k]? = some (((k / 4 : ℕ) : ℤ), 4 - ((k % 4 : ℕ) : ℤ)) := by
  decide

open Classical in
/-- **C98.**  `test_period` on a text that begins with admissible parameters, whatever the uninitialised part of the seed
word contains: it prints the parameters; the least and the largest degree of the minimal polynomials of the 128 output bits
from the seeded object, and the number of terms of the first one of largest degree; then for the start modes 0 to 3 and the
weight modes 4 to 1 a line with `max = mexp`, up to the first start mode in which the minimal polynomial of the lowest output
bit has no irreducible factor of degree `mexp`; there it says `annihilate fail`.  The value `min` is `mexp` in every line if
every bit of the words sees the large component, and 0 in every line otherwise. -/
theorem testPeriod_correct (hm : MinPolySeqSpec mps) (w : W128) {l : Fields} (h1 : 256 ≤ l.mexp) (h3 : l.mexp < 2 ^ 30)
    (hp : ParOK l.param ∧ 1 ≤ l.param.pos1 ∧ l.param.pos1 < l.mexp / 128 + 1) (rest : List Char) :
    ∃ (q : ℕ → (ZMod 2)[X]) (min max lo : ℤ) (mw : ℕ),
      testPeriod mps w (getString l ++ rest) = some ⟨l, min, max, mw,
        (periodModes.takeWhile fun m => HasLarge l.mexp { seed w l.gen with startMode := m.1 }).map
          fun m => ⟨m.1, m.2, lo, l.mexp⟩,
        ¬ ∀ m ∈ periodModes, HasLarge l.mexp { seed w l.gen with startMode := m.1 }⟩ ∧
      (∀ i < 128, IsSeqMinpoly (q i) (Search.bitAt (ops (l.mexp / 128 + 1)) (seed w l.gen) i)) ∧
      MinMax (List.range 128) q min max mw ∧
      ∀ f : (ZMod 2)[X], Irreducible f → f.natDegree = l.mexp →
        Module.finrank (ZMod 2) (Large (l.mexp / 128 + 1) l.param f) = l.mexp →
        lo = if ∀ b < 128, Seen (l.mexp / 128 + 1) l.param f b then (l.mexp : ℤ) else 0 := by
  have hg := gen_inv h1 rfl hp
  set n := l.mexp / 128 + 1 with hn
  have hbig : n * 128 < 2 * l.mexp := by omega
  have hs : Inv1 n l.mexp (seed w l.gen) := ⟨(seed_inv hg.toInv w).1, hg.start, hg.weight, hg.rev, hg.mexp⟩
  obtain ⟨m, min, max, mw, q, e1, e2, e3⟩ := before_spec hm (redGen1 hs) (by show n * 128 < _; omega) ⟨hs, rfl⟩
    (den_full hs.weight) (is := List.range 128) (by simp) (fun i hi => by simpa using hi)
  -- the value `min` of the lines
  obtain ⟨lo, hlo⟩ : ∃ lo : ℤ, ∀ f : (ZMod 2)[X], Irreducible f → f.natDegree = l.mexp →
      Module.finrank (ZMod 2) (Large n l.param f) = l.mexp →
      lo = if ∀ b < 128, Seen n l.param f b then (l.mexp : ℤ) else 0 := by
    by_cases h : ∃ f : (ZMod 2)[X], Irreducible f ∧ f.natDegree = l.mexp ∧
        Module.finrank (ZMod 2) (Large n l.param f) = l.mexp
    · obtain ⟨f, f1, f2, f3⟩ := h
      exact ⟨if ∀ b < 128, Seen n l.param f b then (l.mexp : ℤ) else 0, fun f' g1 g2 g3 => by
        rw [large_unique h1 hp f1 f2 f3 g1 g2 g3]⟩
    · exact ⟨0, fun f g1 g2 g3 => absurd ⟨f, g1, g2, g3⟩ h⟩
  refine ⟨q, min, max, lo, mw, ?_, fun i hi => e2 i (by simpa using hi), e3, hlo⟩
  unfold testPeriod
  rw [parse_ok h3 hp rest]
  dsimp only
  have e1' : minMaxPoly mps (ops n) (List.range 128) (seed w l.gen) =
    some (PIS.stateAt (ops n) (seed w l.gen) m, min, max, mw) := e1
  rw [← hn, e1']
  dsimp only
  have hst := (stateAt_spec (redGen1 hs).toLinGen (g := seed w l.gen) ⟨hs, rfl⟩ m)
  have hst' : PIS.stateAt (rops n l.mexp).toGenOps (seed w l.gen) m = PIS.stateAt (ops n) (seed w l.gen) m := rfl
  rw [hst'] at hst
  obtain ⟨⟨hsi, hsp⟩, hsd⟩ := hst
  generalize PIS.stateAt (ops n) (seed w l.gen) m = sf at hsi hsp hsd
  have hsp' : sf.param = l.param := hsp
  rw [modeLoop_spec (good := fun i => HasLarge l.mexp { seed w l.gen with startMode := i }) (lo := fun _ => lo)
    (hi := (l.mexp : ℤ)) periodModes]
  · show some _ = some _
    have : fieldsOf l.gen = l := rfl
    rw [this]
  · rintro ⟨i', j'⟩ hmem
    obtain ⟨⟨i, hi, rfl⟩, j, hj1, hj4, rfl⟩ : (∃ i : ℕ, i < 4 ∧ (i : ℤ) = i') ∧ ∃ j : ℕ, 1 ≤ j ∧ j ≤ 4 ∧ (j : ℤ) = j' := by
      have h : ∀ m ∈ periodModes, (0 ≤ m.1 ∧ m.1 < 4) ∧ 1 ≤ m.2 ∧ m.2 ≤ 4 := by decide
      have h := h _ hmem
      exact ⟨⟨i'.toNat, by omega, by omega⟩, j'.toNat, by omega, by omega, by omega⟩
    have hR := redGen (n := n) ⟨l.param, i, 4, false⟩ l.mexp rfl rfl hp.2.1 hp.2.2 hs.three hp.1
    -- the object of the mode, before the weight mode is set
    have hi1 : Inv n { sf with startMode := (i : ℤ), previous := mk64 0 0 } :=
      ⟨hsi.three, hsi.size, hsi.index, hsi.pos_pos, hsi.pos, hsi.ok⟩
    have hi2 : cfg { sf with startMode := (i : ℤ), previous := mk64 0 0 } = ⟨l.param, i, 4, false⟩ := by
      unfold cfg
      rw [Cfg.mk.injEq]
      exact ⟨hsp', rfl, hsi.weight, hsi.rev⟩
    have hj1' : Inv n { seed w l.gen with startMode := (i : ℤ) } :=
      ⟨hs.three, hs.size, hs.index, hs.pos_pos, hs.pos, hs.ok⟩
    have hden : den n { sf with startMode := (i : ℤ), previous := mk64 0 0 } =
        (T n ⟨l.param, i, 4, false⟩ ^ m) (den n { seed w l.gen with startMode := (i : ℤ) }) := by
      have e : ∀ (i : ℤ) (v : Fin n → Wd 128), (T n ⟨l.param, i, 4, false⟩ ^ m) ((v, 0) : S n) = ((T1 n l.param ^ m) v, 0) := by
        intro i v
        have := aeval_ring (c := ⟨l.param, i, 4, false⟩) rfl (X ^ m) v
        rwa [map_pow, map_pow, aeval_X, aeval_X] at this
      have e0 : den n sf = _ := hsd
      rw [den_ring hsi.weight, den_ring hs.weight] at e0
      rw [den_ring (s := { sf with startMode := (i : ℤ), previous := mk64 0 0 }) hsi.weight,
        den_ring (s := { seed w l.gen with startMode := (i : ℤ) }) hs.weight, e]
      exact e0.trans (e 0 _)
    have hiff := hasFactor_adv hR (s := { seed w l.gen with startMode := (i : ℤ) })
      (s' := { sf with startMode := (i : ℤ), previous := mk64 0 0 }) (by decide) ⟨hj1', rfl⟩ (den_full hs.weight) ⟨hi1, hi2⟩
      (den_full hsi.weight) hden
    have hφ := sim (n := n) (mexp := l.mexp) (Inv := fun s => Inv n s ∧ cfg s = ⟨l.param, i, 4, false⟩)
      (fun s hs => congrArg Cfg.weight hs.2) hj1 hj4
    have hms := mode_spec hφ hm hR (by decide) (by show 1 ≤ n * 128; omega) hbig (by show l.mexp < _; omega)
      (anni := anniS mps (rops n l.mexp)) ⟨hi1, hi2⟩ (den_full hsi.weight)
      (anniS_correct hm hR (by decide) (by show 1 ≤ l.mexp; omega) hbig (obs rfl hs.three hp.2.1 hp.2.2 hp.1) ⟨hi1, hi2⟩ (den_full hsi.weight))
      (hφ.anniS hm hR (by decide) (by show 1 ≤ n * 128; omega) ⟨hi1, hi2⟩ (den_full hsi.weight))
      (fun s' hs' => anniS_adv hR (by decide) ⟨hi1, hi2⟩ (den_full hsi.weight) hs')
      (is := List.range 128) (by simp) (fun i hi => by simpa using hi)
    refine ⟨fun hg => ?_, fun hg => hms.2 fun h => hg (hiff.1 h)⟩
    obtain ⟨sf2, s', min', mw', f, t, g1, g2, g3, g4, g5, g6, g7⟩ := hms.1 (hiff.2 hg)
    have hd := dim_of_isolated hbig g3 g4 g5
    have hsee : (∀ b ∈ List.range 128, SeenAt 128 (n * 128) (unit n) (T n ⟨l.param, i, 4, false⟩) (O n ⟨l.param, i, 4, false⟩) f b) ↔
        ∀ b < 128, Seen n l.param f b := by
      constructor
      · intro h b hb
        have := (seenAt_iff hs.three hp.2.1 hp.2.2 hp.1 f hi (b := (b + (128 - 32 * i)) % 128) (Nat.mod_lt _ (by decide))).1
          (h _ (List.mem_range.2 (Nat.mod_lt _ (by decide))))
        rwa [show ((b + (128 - 32 * i)) % 128 + 32 * i) % 128 = b by omega] at this
      · intro h b hb
        rw [List.mem_range] at hb
        exact (seenAt_iff hs.three hp.2.1 hp.2.2 hp.1 f hi hb).2 (h _ (Nat.mod_lt _ (by decide)))
    have hmin : min' = lo := by
      rw [hlo f g3 g4 hd]
      split
      · exact g6 (hsee.2 ‹_›)
      · exact g7 fun h => ‹¬ _› (hsee.1 h)
    rw [← hmin]
    exact ⟨sf2, s', mw', g1, g2⟩

theorem hasLarge_iff (hm : MinPolySeqSpec mps) (w : W128) {l : Fields} (h1 : 256 ≤ l.mexp)
    (hp : ParOK l.param ∧ 1 ≤ l.param.pos1 ∧ l.param.pos1 < l.mexp / 128 + 1) {i : ℕ} (hi : i < 4) :
    HasLarge l.mexp { seed w l.gen with startMode := (i : ℤ) } ↔ ∃ f : (ZMod 2)[X], Irreducible f ∧ f.natDegree = l.mexp ∧
      (∀ r, aeval (T1 (l.mexp / 128 + 1) l.param) r
        (Ring.vec (l.mexp / 128 + 1) (seed w l.gen).state (seed w l.gen).index) = 0 → f ∣ r) ∧
      Seen (l.mexp / 128 + 1) l.param f (32 * i) := by
  have hg := gen_inv h1 rfl hp
  set n := l.mexp / 128 + 1 with hn
  have hbig : n * 128 < 2 * l.mexp := by omega
  have hs : Inv1 n l.mexp (seed w l.gen) := ⟨(seed_inv hg.toInv w).1, hg.start, hg.weight, hg.rev, hg.mexp⟩
  have hR := redGen (n := n) ⟨l.param, i, 4, false⟩ l.mexp rfl rfl hp.2.1 hp.2.2 hs.three hp.1
  have hj1' : Inv n { seed w l.gen with startMode := (i : ℤ) } :=
    ⟨hs.three, hs.size, hs.index, hs.pos_pos, hs.pos, hs.ok⟩
  refine (hasFactor_iff hm hR (by decide) hbig (s := { seed w l.gen with startMode := (i : ℤ) }) ⟨hj1', rfl⟩
    (den_full hs.weight)).trans ?_
  have hA : ∀ r : (ZMod 2)[X], aeval (T n ⟨l.param, i, 4, false⟩) r (den n { seed w l.gen with startMode := (i : ℤ) }) = 0 ↔
      aeval (T1 n l.param) r (Ring.vec n (seed w l.gen).state (seed w l.gen).index) = 0 := by
    intro r
    rw [den_ring (s := { seed w l.gen with startMode := (i : ℤ) }) hs.weight, aeval_ring rfl]
    exact ⟨fun h => congrArg Prod.fst h, fun h => by rw [h]; rfl⟩
  have hS : ∀ f, SeenAt 128 (n * 128) (unit n) (T n ⟨l.param, i, 4, false⟩) (O n ⟨l.param, i, 4, false⟩) f 0 ↔
      Seen n l.param f (32 * i) := by
    intro f
    have := seenAt_iff hs.three hp.2.1 hp.2.2 hp.1 f hi (b := 0) (by decide)
    rwa [show (0 + 32 * i) % 128 = 32 * i by omega] at this
  constructor
  · rintro ⟨f, f1, f2, f3, f4⟩
    exact ⟨f, f1, f2, fun r hr => f3 r ((hA r).2 hr), (hS f).1 f4⟩
  · rintro ⟨f, f1, f2, f3, f4⟩
    exact ⟨f, f1, f2, fun r hr => f3 r ((hA r).1 hr), (hS f).2 f4⟩

/-- **C98.**  If the seeded object has a part in the large component and every bit of the words sees this component, the
program prints all sixteen lines, each with `min = max = mexp`, and does not fail. -/
theorem testPeriod_full (hm : MinPolySeqSpec mps) (w : W128) {l : Fields} (h1 : 256 ≤ l.mexp) (h3 : l.mexp < 2 ^ 30)
    (hp : ParOK l.param ∧ 1 ≤ l.param.pos1 ∧ l.param.pos1 < l.mexp / 128 + 1) (rest : List Char) {f : (ZMod 2)[X]}
    (hf : Irreducible f) (hdeg : f.natDegree = l.mexp)
    (hdim : Module.finrank (ZMod 2) (Large (l.mexp / 128 + 1) l.param f) = l.mexp)
    (hseed : ∀ r, aeval (T1 (l.mexp / 128 + 1) l.param) r
      (Ring.vec (l.mexp / 128 + 1) (seed w l.gen).state (seed w l.gen).index) = 0 → f ∣ r)
    (hseen : ∀ b < 128, Seen (l.mexp / 128 + 1) l.param f b) :
    ∃ (min max : ℤ) (mw : ℕ), testPeriod mps w (getString l ++ rest) =
      some ⟨l, min, max, mw, periodModes.map fun m => ⟨m.1, m.2, l.mexp, l.mexp⟩, false⟩ := by
  obtain ⟨q, min, max, lo, mw, e1, -, -, e4⟩ := testPeriod_correct hm w h1 h3 hp rest
  have hall : ∀ m ∈ periodModes, HasLarge l.mexp { seed w l.gen with startMode := m.1 } := by
    rintro ⟨i', j'⟩ hmem
    obtain ⟨i, hi, rfl⟩ : ∃ i : ℕ, i < 4 ∧ (i : ℤ) = i' := by
      have h : ∀ m ∈ periodModes, 0 ≤ m.1 ∧ m.1 < 4 := by decide
      have h := h _ hmem
      exact ⟨i'.toNat, by omega, by omega⟩
    exact (hasLarge_iff hm w h1 hp hi).2 ⟨f, hf, hdeg, hseed, hseen _ (by omega)⟩
  refine ⟨min, max, mw, ?_⟩
  classical
  rw [e1, e4 f hf hdeg hdim, if_pos hseen, takeWhile_all fun m hm => decide_eq_true (hall m hm),
    decide_eq_false (not_not.2 hall)]

/-- The published parameters of SFMT19937 meet the hypotheses on the parameters. -/
example : 256 ≤ line19937.mexp ∧ line19937.mexp < 2 ^ 30 ∧ ParOK line19937.param ∧ 1 ≤ line19937.param.pos1 ∧
    line19937.param.pos1 < line19937.mexp / 128 + 1 :=
  ⟨by decide, by decide, ⟨by decide, by decide, by decide, by decide, by decide, by decide⟩, by decide, by decide⟩

end MTT.SFMT

namespace MTT.DSFMT

open Polynomial PIS Search W128 Parity Anni Text

variable {n mexp : ℕ} {mps : MPS}

/-- The words that an object with parameters `p` produces from the state `v`: the last word of the ring is word 0, the next
one produced is word 1, and so on. -/
def wordAt (n : ℕ) (p : Par) (v : Core n) (k : ℕ) : W128 := SFMT.at' ((T1 n p ^ k) v).1 (n - 1)

/-- Bit `b` of the words (0 is the least significant) is not constantly 0 in the component of `f`. -/
def Seen (n : ℕ) (p : Par) (f : (ZMod 2)[X]) (b : ℕ) : Prop := ∃ v ∈ Large n p f, ∃ k, (wordAt n p v k).getLsbD b = true

/-- The bits of the words that the program examines in start mode `i`; the words have the bits 0 to 51 and 64 to 115. -/
def Examined (i : ℤ) (b : ℕ) : Prop := if i = 0 then b < 52 ∨ 64 ≤ b ∧ b < 104 else b < 40 ∨ 64 ≤ b ∧ b < 116

/-! ### Start modes and weight modes -/

theorem two_bit (a b : W128) (i j x : ℕ) (hx : x < 128) :
    (mk64 (u64 a i) (u64 b j)).getLsbD x = if x < 64 then a.getLsbD (64 * i + x) else b.getLsbD (64 * j + (x - 64)) := by
  rw [mk64_bit, u64_bit, u64_bit]
  split_ifs
  · rw [decide_eq_true (by omega), Bool.true_and]
  · rw [decide_eq_true (by omega), Bool.true_and]

theorem select_bit {i : ℕ} (hi : i < 2) (y z : W128) {b : ℕ} (hb : b < 128) :
    (select i y z).getLsbD b = if i = 0 ∨ 128 ≤ b + 64 * i then z.getLsbD ((b + 64 * i) % 128) else y.getLsbD (b + 64 * i) := by
  unfold select
  interval_cases i
  · rw [if_pos (by decide), if_pos (.inl rfl), two_bit _ _ _ _ _ hb]
    split_ifs <;> (congr 1; omega)
  · rw [if_neg (by decide), two_bit _ _ _ _ _ hb]
    simp only [one_ne_zero, false_or]
    split_ifs <;> first | omega | (congr 1; omega)

theorem merge_bit {j : ℕ} (h1 : 1 ≤ j) (h2 : j ≤ 2) (r q : W128) {b : ℕ} (hb : b < 128) :
    (merge j r q).getLsbD b = if decide (64 * j ≤ b) then q.getLsbD b else r.getLsbD b := by
  unfold merge
  interval_cases j
  · rw [if_neg (by decide), two_bit _ _ _ _ _ hb]
    simp only [decide_eq_true_eq]
    split_ifs <;> first | omega | (congr 1; omega)
  · rw [if_pos (by decide), if_neg (by simp only [decide_eq_true_eq]; omega)]

theorem setOneBit_weight (k : ℕ) (s : St) (j : ℤ) :
    setOneBit k { s with weightMode := j } = { setOneBit k s with weightMode := j } := by
  have e1 : ∀ t : St, k < t.size * 104 → setOneBit k t = { setZero t with
      state := Function.update (setZero t).state (k / 104)
        (SFMT.setU64 ((setZero t).state (k / 104)) ((k / 52) % 2) ((1 : BitVec 64) <<< (k % 52))) } := fun t h => if_pos h
  have e2 : ∀ t : St, ¬ k < t.size * 104 → setOneBit k t = { setZero t with
      lung := SFMT.setU64 (setZero t).lung (((k - t.size * 104) / 64) % 2) ((1 : BitVec 64) <<< ((k - t.size * 104) % 64)) } :=
    fun t h => if_neg h
  by_cases h : k < s.size * 104
  · rw [e1 s h, e1 { s with weightMode := j } h]; rfl
  · rw [e2 s h, e2 { s with weightMode := j } h]; rfl

/-- The weight mode only decides which bits of the output are those of the previous output. -/
theorem sim {Inv : St → Prop} (hInv : ∀ s, Inv s → s.weightMode = 2) {j : ℕ} (h1 : 1 ≤ j) (h2 : j ≤ 2) :
    Sim (rops n mexp) Inv (fun s => { s with weightMode := j }) (fun s => s.previous) (fun b => decide (64 * j ≤ b)) where
  gen _ := rfl
  add _ _ := rfl
  zero _ := rfl
  one k s := by
    show setOneBit k { s with weightMode := j } = { setOneBit k s with weightMode := j }
    exact setOneBit_weight k s j
  parity _ := rfl
  prev_gen s hs := by
    show _ = merge (nextState s).weightMode _ _
    rw [show (nextState s).weightMode = 2 from hInv s hs]
    rfl
  out s pos hs hp := by
    have h : ((rops n mexp).generate s).2 = ((rops n mexp).generate s).1.previous := by
      show merge (nextState s).weightMode _ _ = _
      rw [show (nextState s).weightMode = 2 from hInv s hs]
      rfl
    rw [h]
    exact merge_bit h1 h2 _ _ hp
  low := decide_eq_false (by omega)

theorem word_period {p : Par} (hpos : 1 ≤ p.pos1) (hn : p.pos1 < n) (v : Core n) (k : ℕ) :
    ∃ k', wordAt n p v (k' + 1) = wordAt n p v k := by
  obtain ⟨N, h1, h2⟩ := Search.exists_period (T1_bijective hpos hn).1 v
  refine ⟨k + N - 1, ?_⟩
  unfold wordAt
  rw [show k + N - 1 + 1 = k + N by omega, pow_add, Module.End.mul_apply, h2]

theorem aeval_low' {p : Par} (hp : ParOK n p) (i : ℤ) (r : (ZMod 2)[X]) {x : Core n} (hx : x ∈ Low n) :
    aeval (T n ⟨p, i, 2⟩) r ((x, 0) : S n) = (aeval (T1 n p) r x, 0) := by
  have hR := redGen (n := n) ⟨p, i, 2⟩ 1 rfl hp.2.1 hp.2.2.1 hp.1
  have hn : 0 < n := by have := hp.2.2.1; omega
  exact Prod.ext (aeval_fst ⟨p, i, 2⟩ r _) ((mem_M hn _).1 (aeval_M hR r ((mem_M hn (x, 0)).2 ⟨hx, rfl⟩))).2

theorem pow_low {p : Par} (hp : ParOK n p) (i : ℤ) (k : ℕ) {x : Core n} (hx : x ∈ Low n) :
    (T n ⟨p, i, 2⟩ ^ k) ((x, 0) : S n) = ((T1 n p ^ k) x, 0) := by
  have := aeval_low' hp i (X ^ k) hx
  rwa [map_pow, map_pow, aeval_X, aeval_X] at this

/-- What the output of start mode `i` sees of the component. -/
theorem seenAt_iff {p : Par} (hp : ParOK n p) (f : (ZMod 2)[X]) {i : ℕ} (hi : i < 2) {b : ℕ} (hb : b < 128) :
    SeenAt 128 (n * 104 + 128) (unit n) (T n ⟨p, i, 2⟩) (O n ⟨p, i, 2⟩) f b ↔ Seen n p f ((b + 64 * i) % 128) := by
  have hn : 0 < n := by have := hp.2.2.1; omega
  have hout : ∀ (v : Core n) (k : ℕ), v ∈ Low n → (O n ⟨p, i, 2⟩ ((T n ⟨p, i, 2⟩ ^ k) ((v, 0) : S n)) (128 - 1 - b) ≠ 0 ↔
      (select i (wordAt n p v k) (wordAt n p v (k + 1))).getLsbD b = true) := by
    intro v k hv
    rw [pow_low hp i k hv]
    have h2 : selOf ⟨p, i, 2⟩ ((T1 n p ^ k) v) = select i (wordAt n p v k) (wordAt n p v (k + 1)) := by
      unfold selOf wordAt
      rw [pow_succ', Module.End.mul_apply, at_T1 (by omega)]
    show bits (out ⟨p, i, 2⟩ (((T1 n p ^ k) v, 0) : S n)) (128 - 1 - b) ≠ 0 ↔ _
    unfold out
    rw [show keep 2 = 0 from rfl, show ~~~ (0 : W128) = BitVec.allOnes 128 by decide, BitVec.and_allOnes,
      show ((0 : Wd 128).val) = (0 : W128) from rfl, show ∀ y : W128, y ^^^ (0 : W128) = y from fun y => BitVec.xor_zero, h2]
    unfold bits
    rw [BitVec.getMsbD_eq_getLsbD, decide_eq_true (by omega), Bool.true_and, show 128 - 1 - (128 - 1 - b) = b by omega]
    cases (select i (wordAt n p v k) (wordAt n p v (k + 1))).getLsbD b <;> simp
  constructor
  · rintro ⟨x, x1, x2, k, x3⟩
    obtain ⟨y1, y2⟩ := (mem_M (mexp := 1) hn x).1 x1
    obtain ⟨v, x'⟩ := x
    dsimp only at y1 y2
    subst y2
    rw [aeval_low' hp i f y1] at x2
    rw [hout v k y1, select_bit hi _ _ hb] at x3
    refine ⟨v, Submodule.mem_inf.2 ⟨congrArg Prod.fst x2, y1⟩, ?_⟩
    split at x3
    · exact ⟨k + 1, x3⟩
    · exact ⟨k, by rw [Nat.mod_eq_of_lt (by omega)]; exact x3⟩
  · rintro ⟨v, hv, k, hk⟩
    obtain ⟨v1, v2⟩ := Submodule.mem_inf.1 hv
    refine ⟨(v, 0), (mem_M (mexp := 1) hn _).2 ⟨v2, rfl⟩, by rw [aeval_low' hp i f v2, LinearMap.mem_ker.1 v1]; rfl, ?_⟩
    by_cases hz : i = 0 ∨ 128 ≤ b + 64 * i
    · obtain ⟨k', hk'⟩ := word_period hp.2.1 hp.2.2.1 v k
      refine ⟨k', (hout v k' v2).2 ?_⟩
      rw [select_bit hi _ _ hb, if_pos hz, hk']
      exact hk
    · refine ⟨k, (hout v k v2).2 ?_⟩
      rw [select_bit hi _ _ hb, if_neg hz]
      rwa [Nat.mod_eq_of_lt (by omega)] at hk

theorem dim_of_isolated (hbig : n * 104 + 128 < 2 * mexp) {p : Par} (hp : ParOK n p) {i : ℤ} {f : (ZMod 2)[X]}
    (hf : Irreducible f) (hdeg : f.natDegree = mexp) {t : St}
    (ht : Isolated (rops n mexp) (fun s => Inv n s ∧ cfg s = ⟨p, i, 2⟩) (den n) (T n ⟨p, i, 2⟩) (unit n) t f) :
    Module.finrank (ZMod 2) (Large n p f) = mexp := by
  obtain ⟨⟨t1, t2⟩, tM, t3⟩ := ht
  have hn : 0 < n := by have := hp.2.2.1; omega
  unfold cfg at t2
  rw [Cfg.mk.injEq] at t2
  obtain ⟨c1, -, c3⟩ := t2
  have hg : Inv1 n mexp { t with startMode := 0, pfx := 0, mexp := mexp, fixed := false } :=
    ⟨⟨t1.two, t1.size, t1.index, t1.pos_pos, t1.pos, t1.sl1⟩, by rw [← c1] at hp; exact hp.1, by rw [← c1] at hp; exact hp.2.2.2.1,
      rfl, c3, rfl, rfl, fun h => Bool.noConfusion (show false = true from h)⟩
  have h := (cyc_large hg hbig hf hdeg tM ?_).2.2
  · rw [← c1]; exact h
  · refine ⟨t3.1, fun r => ?_⟩
    rw [← t3.2 r]
    obtain ⟨y1, y2⟩ := (mem_M (mexp := mexp) hn _).1 tM
    have hden : den n t = ((den n t).1, 0) := Prod.ext rfl y2
    show aeval (T n ⟨t.param, 0, 2⟩) r (den n t) = 0 ↔ _
    rw [c1, hden, aeval_low' hp 0 r y1, aeval_low' hp i r y1]

/-- **C98.**  Every start mode with every weight mode, the weights descending. -/
theorem periodModes_all : periodModes.length = 4 ∧ ∀ k : ℕ, k < 4 → periodModes[k]? = some (((k / 2 : ℕ) : ℤ), 2 - ((k % 2 : ℕ) : ℤ)) := by
  decide

open Classical in
/-- **C98.**  `calc_period` on a text that begins with admissible parameters, whatever the uninitialised part of the seed
word contains: it prints the parameters and the least and the largest degree of the minimal polynomials of the output bits
0 to 51 and 64 to 103 from the seeded object; then for the start modes 0 and 1 and the weight modes 2 and 1 a line with
`max = mexp`, up to the first start mode in which the minimal polynomial of the lowest output bit has no irreducible factor
of degree `mexp`; there it says `annihilate fail`.  The value `min` is `mexp` in the lines of a start mode if every bit
examined in it sees the large component, and 0 otherwise. -/
theorem calcPeriod_correct (hm : MinPolySeqSpec mps) (w : W128) {l : Fields} (h1 : 336 ≤ l.mexp) (h3 : l.mexp < 2 ^ 30)
    (hn : (l.mexp - 128) / 104 + 1 = n) (hp : ParOK n l.param) (rest : List Char) :
    ∃ (q : ℕ → (ZMod 2)[X]) (min max : ℤ) (lo : ℤ → ℤ) (mw : ℕ),
      calcPeriod mps w (getString l ++ rest) = some ⟨l, min, max, mw,
        (periodModes.takeWhile fun m => HasLarge n l.mexp { seed w l.gen with startMode := m.1 }).map
          fun m => ⟨m.1, m.2, lo m.1, l.mexp⟩,
        ¬ ∀ m ∈ periodModes, HasLarge n l.mexp { seed w l.gen with startMode := m.1 }⟩ ∧
      (∀ i ∈ periodBits, IsSeqMinpoly (q i) (Search.bitAt (ops n) (seed w l.gen) i)) ∧
      MinMax periodBits q min max mw ∧
      ∀ f : (ZMod 2)[X], Irreducible f → f.natDegree = l.mexp →
        Module.finrank (ZMod 2) (Large n l.param f) = l.mexp →
        ∀ i, lo i = if ∀ b, Examined i b → Seen n l.param f b then (l.mexp : ℤ) else 0 := by
  have hg := gen_inv h1 hn rfl hp
  have hbig : n * 104 + 128 < 2 * l.mexp := by omega
  have hn0 : 0 < n := by omega
  obtain ⟨hs, hspar, hsM⟩ := seeded_inv hg w
  have hbits : ∀ b ∈ periodBits, b < 128 := by decide
  obtain ⟨m, min, max, mw, q, e1, e2, e3⟩ := before_spec hm (redGen1 hs) (by show n * 104 + 128 < _; omega) ⟨hs, rfl⟩
    hsM (is := periodBits) (by decide) hbits
  obtain ⟨lo, hlo⟩ : ∃ lo : ℤ → ℤ, ∀ f : (ZMod 2)[X], Irreducible f → f.natDegree = l.mexp →
      Module.finrank (ZMod 2) (Large n l.param f) = l.mexp →
      ∀ i, lo i = if ∀ b, Examined i b → Seen n l.param f b then (l.mexp : ℤ) else 0 := by
    by_cases h : ∃ f : (ZMod 2)[X], Irreducible f ∧ f.natDegree = l.mexp ∧
        Module.finrank (ZMod 2) (Large n l.param f) = l.mexp
    · obtain ⟨f, f1, f2, f3⟩ := h
      exact ⟨fun i => if ∀ b, Examined i b → Seen n l.param f b then (l.mexp : ℤ) else 0, fun f' g1 g2 g3 i => by
        rw [large_unique h1 hn hp f1 f2 (ne_bot_of_dim h1 f3) g1 g2 (ne_bot_of_dim h1 g3)]⟩
    · exact ⟨fun _ => 0, fun f g1 g2 g3 => absurd ⟨f, g1, g2, g3⟩ h⟩
  refine ⟨q, min, max, lo, mw, ?_, e2, e3, hlo⟩
  unfold calcPeriod
  rw [parse_getString l (by omega) (by have := hp.2.2.1; omega) (by have := hp.2.2.2.2; omega) rest]
  dsimp only
  have e1' : minMaxPoly mps (ops n) periodBits (seed w l.gen) =
    some (PIS.stateAt (ops n) (seed w l.gen) m, min, max, mw) := e1
  rw [hn, e1']
  dsimp only
  have hst := (stateAt_spec (restrict (redGen1 hs).toLinGen _ (redGen1 hs).closed) (g := seed w l.gen) ⟨⟨hs, rfl⟩, hsM⟩ m).1
  have hsd := (stateAt_spec (redGen1 hs).toLinGen (g := seed w l.gen) ⟨hs, rfl⟩ m).2
  have hst' : PIS.stateAt (rops n l.mexp).toGenOps (seed w l.gen) m = PIS.stateAt (ops n) (seed w l.gen) m := rfl
  rw [hst'] at hst hsd
  obtain ⟨⟨hsi, hsp⟩, hsfM⟩ := hst
  generalize PIS.stateAt (ops n) (seed w l.gen) m = sf at hsi hsp hsd hsfM
  have hsp' : sf.param = l.param := hsp.trans hspar
  rw [modeLoop_spec (good := fun i => HasLarge n l.mexp { seed w l.gen with startMode := i }) (lo := lo)
    (hi := (l.mexp : ℤ)) periodModes]
  · show some _ = some _
    have : fieldsOf l.gen = l := rfl
    rw [this]
  · rintro ⟨i', j'⟩ hmem
    obtain ⟨⟨i, hi, rfl⟩, j, hj1, hj2, rfl⟩ : (∃ i : ℕ, i < 2 ∧ (i : ℤ) = i') ∧ ∃ j : ℕ, 1 ≤ j ∧ j ≤ 2 ∧ (j : ℤ) = j' := by
      have h : ∀ m ∈ periodModes, (0 ≤ m.1 ∧ m.1 < 2) ∧ 1 ≤ m.2 ∧ m.2 ≤ 2 := by decide
      have h := h _ hmem
      exact ⟨⟨i'.toNat, by omega, by omega⟩, j'.toNat, by omega, by omega, by omega⟩
    have hR := redGen (n := n) ⟨l.param, i, 2⟩ l.mexp rfl hp.2.1 hp.2.2.1 hp.1
    -- the object of the mode, before the weight mode is set
    have hden0 : ∀ (s : St) (q : W128) (i : ℤ), s.weightMode = 2 → den n { s with startMode := i, previous := q } = den n s := by
      intro s q i hw
      refine Prod.ext rfl ?_
      show Wd.of (q &&& keep s.weightMode) = Wd.of (s.previous &&& keep s.weightMode)
      rw [hw, show keep 2 = 0 from rfl, show ∀ x : W128, x &&& 0 = 0 from fun x => BitVec.and_zero,
        show ∀ x : W128, x &&& 0 = 0 from fun x => BitVec.and_zero]
    have hi1 : Inv n { sf with startMode := (i : ℤ), previous := mk64 0 0 } :=
      ⟨hsi.two, hsi.size, hsi.index, hsi.pos_pos, hsi.pos, hsi.sl1⟩
    have hi2 : cfg { sf with startMode := (i : ℤ), previous := mk64 0 0 } = ⟨l.param, i, 2⟩ := by
      unfold cfg
      rw [Cfg.mk.injEq]
      exact ⟨hsp', rfl, hsi.weight⟩
    have hj1' : Inv n { seed w l.gen with startMode := (i : ℤ) } :=
      ⟨hs.two, hs.size, hs.index, hs.pos_pos, hs.pos, hs.sl1⟩
    have hsM' : den n { seed w l.gen with startMode := (i : ℤ) } ∈ M (n * 104 + 128) (unit n) := hsM
    have hfM' : den n { sf with startMode := (i : ℤ), previous := mk64 0 0 } ∈ M (n * 104 + 128) (unit n) := by
      rw [hden0 sf _ _ hsi.weight]; exact hsfM
    have hden : den n { sf with startMode := (i : ℤ), previous := mk64 0 0 } =
        (T n ⟨l.param, i, 2⟩ ^ m) (den n { seed w l.gen with startMode := (i : ℤ) }) := by
      obtain ⟨y1, y2⟩ := (mem_M (mexp := l.mexp) hn0 _).1 hsM
      have hd : den n (seed w l.gen) = ((den n (seed w l.gen)).1, 0) := Prod.ext rfl y2
      have e0 : den n sf = (T n ⟨l.param, 0, 2⟩ ^ m) (den n (seed w l.gen)) := hsd
      rw [hden0 sf _ _ hsi.weight, e0, show den n { seed w l.gen with startMode := (i : ℤ) } = den n (seed w l.gen) from rfl, hd,
        pow_low hp _ _ y1, pow_low hp _ _ y1]
    have hiff := hasFactor_adv hR (s := { seed w l.gen with startMode := (i : ℤ) })
      (s' := { sf with startMode := (i : ℤ), previous := mk64 0 0 }) (by decide) ⟨hj1', rfl⟩ hsM' ⟨hi1, hi2⟩
      hfM' hden
    have hφ := sim (n := n) (mexp := l.mexp) (Inv := fun s => Inv n s ∧ cfg s = ⟨l.param, i, 2⟩)
      (fun s hs => congrArg Cfg.weight hs.2) hj1 hj2
    have hms := mode_spec hφ hm hR (by decide) (by show 1 ≤ n * 104 + 128; omega) hbig (by show l.mexp < _; omega)
      (anni := anniD mps (rops n l.mexp)) ⟨hi1, hi2⟩ hfM'
      (anniD_correct hm hR (by decide) (by show 1 ≤ l.mexp; omega) hbig (obs hp.2.1 hp.2.2.1 hp.2.2.2.1) ⟨hi1, hi2⟩ hfM')
      (hφ.anniD hR (by decide) ⟨hi1, hi2⟩)
      (fun s' hs' => anniD_adv hR (by decide) ⟨hi1, hi2⟩ hfM' hs')
      (is := periodBits) (by decide) hbits
    refine ⟨fun hg => ?_, fun hg => hms.2 fun h => hg (hiff.1 h)⟩
    obtain ⟨sf2, s', min', mw', f, t, g1, g2, g3, g4, g5, g6, g7⟩ := hms.1 (hiff.2 hg)
    have hd := dim_of_isolated hbig hp g3 g4 g5
    have hex : ∀ b, Examined (i : ℤ) b ↔ ∃ b' ∈ periodBits, (b' + 64 * i) % 128 = b := by
      have hmem : ∀ b, b ∈ periodBits ↔ b < 52 ∨ 64 ≤ b ∧ b < 104 := by
        intro b
        unfold periodBits
        rw [List.mem_append, List.mem_range, List.mem_range'_1]
      intro b
      simp only [hmem]
      unfold Examined
      interval_cases i
      · rw [if_pos (by decide)]
        exact ⟨fun h => ⟨b, h, by omega⟩, by rintro ⟨b', h, h'⟩; omega⟩
      · rw [if_neg (by decide)]
        exact ⟨fun h => ⟨(b + 64) % 128, by omega, by omega⟩, by rintro ⟨b', h, h'⟩; omega⟩
    have hsee : (∀ b ∈ periodBits, SeenAt 128 (n * 104 + 128) (unit n) (T n ⟨l.param, i, 2⟩) (O n ⟨l.param, i, 2⟩) f b) ↔
        ∀ b, Examined (i : ℤ) b → Seen n l.param f b := by
      constructor
      · intro h b hb
        obtain ⟨b', hb', rfl⟩ := (hex b).1 hb
        exact (seenAt_iff hp f hi (hbits b' hb')).1 (h b' hb')
      · intro h b hb
        exact (seenAt_iff hp f hi (hbits b hb)).2 (h _ ((hex _).2 ⟨b, hb, rfl⟩))
    have hmin : min' = lo i := by
      rw [hlo f g3 g4 hd i]
      split
      · exact g6 (hsee.2 ‹_›)
      · exact g7 fun h => ‹¬ _› (hsee.1 h)
    rw [← hmin]
    exact ⟨sf2, s', mw', g1, g2⟩

theorem hasLarge_iff (hm : MinPolySeqSpec mps) (w : W128) {l : Fields} (h1 : 336 ≤ l.mexp)
    (hn : (l.mexp - 128) / 104 + 1 = n) (hp : ParOK n l.param) {i : ℕ} (hi : i < 2) :
    HasLarge n l.mexp { seed w l.gen with startMode := (i : ℤ) } ↔ ∃ f : (ZMod 2)[X], Irreducible f ∧ f.natDegree = l.mexp ∧
      (∀ r, aeval (T1 n l.param) r (core n (seed w l.gen)) = 0 → f ∣ r) ∧ Seen n l.param f (64 * i) := by
  have hg := gen_inv h1 hn rfl hp
  have hbig : n * 104 + 128 < 2 * l.mexp := by omega
  have hn0 : 0 < n := by omega
  obtain ⟨hs, hspar, hsM⟩ := seeded_inv hg w
  have hR := redGen (n := n) ⟨l.param, i, 2⟩ l.mexp rfl hp.2.1 hp.2.2.1 hp.1
  have hj1' : Inv n { seed w l.gen with startMode := (i : ℤ) } :=
    ⟨hs.two, hs.size, hs.index, hs.pos_pos, hs.pos, hs.sl1⟩
  refine (hasFactor_iff hm hR (by decide) hbig (s := { seed w l.gen with startMode := (i : ℤ) }) ⟨hj1', rfl⟩
    (show den n { seed w l.gen with startMode := (i : ℤ) } ∈ M (n * 104 + 128) (unit n) from hsM)).trans ?_
  have hA : ∀ r : (ZMod 2)[X], aeval (T n ⟨l.param, i, 2⟩) r (den n { seed w l.gen with startMode := (i : ℤ) }) = 0 ↔
      aeval (T1 n l.param) r (core n (seed w l.gen)) = 0 := by
    intro r
    obtain ⟨y1, y2⟩ := (mem_M (mexp := l.mexp) hn0 _).1 hsM
    have hd : den n (seed w l.gen) = (core n (seed w l.gen), 0) := Prod.ext rfl y2
    rw [show den n { seed w l.gen with startMode := (i : ℤ) } = den n (seed w l.gen) from rfl, hd,
      aeval_low' hp i r (show core n (seed w l.gen) ∈ Low n from y1)]
    exact ⟨fun h => congrArg Prod.fst h, fun h => by rw [h]; rfl⟩
  have hS : ∀ f, SeenAt 128 (n * 104 + 128) (unit n) (T n ⟨l.param, i, 2⟩) (O n ⟨l.param, i, 2⟩) f 0 ↔
      Seen n l.param f (64 * i) := by
    intro f
    have := seenAt_iff hp f hi (b := 0) (by decide)
    rwa [show (0 + 64 * i) % 128 = 64 * i by omega] at this
  constructor
  · rintro ⟨f, f1, f2, f3, f4⟩
    exact ⟨f, f1, f2, fun r hr => f3 r ((hA r).2 hr), (hS f).1 f4⟩
  · rintro ⟨f, f1, f2, f3, f4⟩
    exact ⟨f, f1, f2, fun r hr => f3 r ((hA r).1 hr), (hS f).2 f4⟩

/-- **C98.**  If the seeded object has a part in the large component, and the bits 0 to 51 and 64 to 115 of the words see
this component, the program prints all four lines, each with `min = max = mexp`, and does not fail. -/
theorem calcPeriod_full (hm : MinPolySeqSpec mps) (w : W128) {l : Fields} (h1 : 336 ≤ l.mexp) (h3 : l.mexp < 2 ^ 30)
    (hn : (l.mexp - 128) / 104 + 1 = n) (hp : ParOK n l.param) (rest : List Char) {f : (ZMod 2)[X]}
    (hf : Irreducible f) (hdeg : f.natDegree = l.mexp) (hdim : Module.finrank (ZMod 2) (Large n l.param f) = l.mexp)
    (hseed : ∀ r, aeval (T1 n l.param) r (core n (seed w l.gen)) = 0 → f ∣ r)
    (hseen : ∀ b, b < 52 ∨ 64 ≤ b ∧ b < 116 → Seen n l.param f b) :
    ∃ (min max : ℤ) (mw : ℕ), calcPeriod mps w (getString l ++ rest) =
      some ⟨l, min, max, mw, periodModes.map fun m => ⟨m.1, m.2, l.mexp, l.mexp⟩, false⟩ := by
  obtain ⟨q, min, max, lo, mw, e1, -, -, e4⟩ := calcPeriod_correct hm w h1 h3 hn hp rest
  have hall : ∀ m ∈ periodModes, HasLarge n l.mexp { seed w l.gen with startMode := m.1 } := by
    rintro ⟨i', j'⟩ hmem
    obtain ⟨i, hi, rfl⟩ : ∃ i : ℕ, i < 2 ∧ (i : ℤ) = i' := by
      have h : ∀ m ∈ periodModes, 0 ≤ m.1 ∧ m.1 < 2 := by decide
      have h := h _ hmem
      exact ⟨i'.toNat, by omega, by omega⟩
    exact (hasLarge_iff hm w h1 hn hp hi).2 ⟨f, hf, hdeg, hseed, hseen _ (by omega)⟩
  have hlo : ∀ i, lo i = l.mexp := by
    intro i
    rw [e4 f hf hdeg hdim i, if_pos]
    intro b hb
    unfold Examined at hb
    exact hseen b (by split at hb <;> omega)
  refine ⟨min, max, mw, ?_⟩
  classical
  rw [e1, takeWhile_all fun m hm => decide_eq_true (hall m hm), decide_eq_false (not_not.2 hall)]
  simp only [hlo]

/-- The published parameters of dSFMT19937 meet the hypotheses on the parameters. -/
example : 336 ≤ 19937 ∧ 19937 < 2 ^ 30 ∧ (19937 - 128) / 104 + 1 = 191 ∧
    ParOK 191 ⟨117, 19, 0x000ffafffffffb3f, 0x000ffdfffc90fffd⟩ := by
  refine ⟨by decide, by decide, by decide, ⟨?_, ?_⟩, ?_⟩ <;> decide

end MTT.DSFMT
