import Verif.Samples.LinearityTools
import Verif.Samples.SFMTDCProps
import Verif.Samples.DSFMTDCProps
import Verif.Samples.LineTextProps
import Verif.Samples.MTGPDCProps
import Verif.Lin.Props

/-!
# C100: the programs `test_linearity.cpp` of sfmtdc, dSFMTdc and MTGPDC
-/

namespace MTT.Lin

variable {σ : Type}

theorem lineModes_pass {test : σ → Bool} {setMode : ℤ → ℤ → σ → σ} {sf : σ} (h : ∀ i j, test (setMode i j sf) = true)
    (b : Bool) : ∀ ms, lineModes test setMode sf ms b = (List.replicate ms.length '.', b)
  | [] => rfl
  | m :: ms => by
    rw [lineModes, if_pos (h _ _), lineModes_pass h b ms]
    rfl

theorem lineSeeds_pass {W : Type} {test : σ → Bool} {setMode : ℤ → ℤ → σ → σ} {seed : W → σ → σ} {P : σ → Prop}
    (hs : ∀ w sf, P sf → P (seed w sf)) (h : ∀ sf, P sf → ∀ i j, test (setMode i j sf) = true) (w : ℕ → W)
    (ms : List (ℤ × ℤ)) (b : Bool) : ∀ k se sf, P sf →
      lineSeeds test setMode seed w ms k se sf b = (List.replicate (k * ms.length) '.', b)
  | 0, _, _, _ => by simp [lineSeeds]
  | k + 1, se, sf, hp => by
    have h1 := hs (w se) sf hp
    rw [lineSeeds]
    rw [lineModes_pass (h _ h1), lineSeeds_pass hs h w ms b k (se + 1) _ h1, List.replicate_append_replicate]
    rw [show (k + 1) * ms.length = ms.length + k * ms.length by rw [Nat.add_mul]; omega]

theorem lineModes_success (test : σ → Bool) (setMode : ℤ → ℤ → σ → σ) (sf : σ) : ∀ (ms : List (ℤ × ℤ)) (b : Bool),
    (lineModes test setMode sf ms b).2 = true ↔ b = true ∧ ∀ m ∈ ms, test (setMode m.1 m.2 sf) = true
  | [], b => by simp [lineModes]
  | m :: ms, b => by
    rw [lineModes, List.forall_mem_cons]
    by_cases h : test (setMode m.1 m.2 sf) = true
    · rw [if_pos h]
      simp only [lineModes_success test setMode sf ms b, h, true_and]
    · rw [if_neg h]
      simp only [lineModes_success test setMode sf ms false, h, Bool.false_eq_true, false_and, and_false]

/-- The object after turns `se`, …, `se + t` of the loop over the seeds. -/
def seeded {W : Type} (seed : W → σ → σ) (w : ℕ → W) (se : ℕ) (sf : σ) : ℕ → σ
  | 0 => seed (w se) sf
  | t + 1 => seed (w (se + (t + 1))) (seeded seed w se sf t)

theorem seeded_shift {W : Type} (seed : W → σ → σ) (w : ℕ → W) (se : ℕ) (sf : σ) : ∀ t,
    seeded seed w se sf (t + 1) = seeded seed w (se + 1) (seed (w se) sf) t
  | 0 => rfl
  | t + 1 => by
    rw [seeded, seeded_shift seed w se sf t, seeded, show se + 1 + (t + 1) = se + (t + 1 + 1) by omega]

/-- **C100.**  For any class the variable `success` is true in the end exactly if the test has accepted the object in every
turn and every mode. -/
theorem lineSeeds_success {W : Type} (test : σ → Bool) (setMode : ℤ → ℤ → σ → σ) (seed : W → σ → σ) (w : ℕ → W)
    (ms : List (ℤ × ℤ)) : ∀ k se sf b, (lineSeeds test setMode seed w ms k se sf b).2 = true ↔
      b = true ∧ ∀ t < k, ∀ m ∈ ms, test (setMode m.1 m.2 (seeded seed w se sf t)) = true
  | 0, _, _, b => by simp [lineSeeds]
  | k + 1, se, sf, b => by
    rw [lineSeeds]
    dsimp only
    rw [lineSeeds_success test setMode seed w ms k, lineModes_success, and_assoc]
    refine and_congr_right fun _ => ⟨fun h t ht => ?_, fun h => ⟨h 0 (by omega), fun t ht => ?_⟩⟩
    · cases t with
      | zero => exact h.1
      | succ t => rw [seeded_shift]; exact h.2 t (by omega)
    · rw [← seeded_shift]; exact h (t + 1) (by omega)

/-- **C100.**  The message of success is the only sign of it: the exit status is 0 in either case. -/
theorem lineEnd_status (r : List Char × Bool) : (lineEnd r).2 = 0 := by
  unfold lineEnd
  split <;> rfl

end MTT.Lin

namespace MTT.SFMT

open Lin W128 Text

/-- **C100.**  Every start mode with every weight mode, the weights descending. -/
theorem lineModeList_all : lineModeList.length = 16 ∧ ∀ k : ℕ, k < 16 → lineModeList[k]? = some (((k / 4 : ℕ) : ℤ), 4 - ((k % 4 : ℕ) : ℤ)) := by
  decide

/-- **C100.**  `TestLinearity` accepts an SFMT object in every start mode and every weight mode, whatever its state is. -/
theorem linear_modes {n : ℕ} {s : St} (hs : Inv n s) (hr : s.rev = false) (i j : ℤ) :
    testLinearity (ops n) (fun s v => seed v s) (setWeightMode j (setStartMode i s)) = true :=
  testLinearity_complete (linGen (n := n) ⟨s.param, i, j, false⟩ rfl) _
    (fun _ v ht => ⟨(seed_inv ht.1 v).1, (seed_inv ht.1 v).2.trans ht.2⟩)
    ⟨⟨hs.three, hs.size, hs.index, hs.pos_pos, hs.pos, hs.ok⟩, by unfold cfg setWeightMode setStartMode; rw [hr]⟩

/-- **C100.**  `test_linearity` of sfmtdc on a text that begins with admissible parameters prints them, 304 dots and the
message of success, for all contents of the seed words. -/
theorem testLinearityMain_correct (w : ℕ → W128) (prog : List Char) {l : Fields} (h1 : 256 ≤ l.mexp) (h3 : l.mexp < 2 ^ 30)
    (hp : ParOK l.param ∧ 1 ≤ l.param.pos1 ∧ l.param.pos1 < l.mexp / 128 + 1) (rest : List Char) (args : List (List Char)) :
    testLinearityMain w prog ((getString l ++ rest) :: args) =
      some (getString l ++ '\n' :: (List.replicate 304 '.' ++ "\nLinearity Test OK\n".toList), 0) := by
  have hg := gen_inv h1 rfl hp
  unfold testLinearityMain
  dsimp only
  rw [parse_getString l (by omega) (by omega) (by have := hp.1.sl1; omega) (by have := hp.1.sl2; omega)
    (by have := hp.1.sr1; omega) (by have := hp.1.sr2; omega) rest]
  dsimp only
  rw [lineSeeds_pass (P := fun s => Inv (l.mexp / 128 + 1) s ∧ s.rev = false)
    (fun v s hs => ⟨(seed_inv hs.1 v).1, hs.2⟩) (fun s hs i j => linear_modes hs.1 hs.2 i j) w lineModeList true 19 1 l.gen
    ⟨hg.toInv, rfl⟩]
  rfl

/-- **C100.**  With an argument the exit status is 0, whatever was found. -/
theorem testLinearityMain_status (w : ℕ → W128) (prog arg : List Char) (args : List (List Char)) {r : List Char × ℤ}
    (h : testLinearityMain w prog (arg :: args) = some r) : r.2 = 0 := by
  unfold testLinearityMain at h
  dsimp only at h
  generalize parse arg = q at h
  cases q with
  | none => exact absurd h (by simp)
  | some l =>
    dsimp only at h
    generalize lineSeeds _ _ _ _ _ _ _ _ _ = q at h
    rw [Option.some.injEq] at h
    subst h
    exact lineEnd_status q

/-- Without arguments the usage is printed. -/
theorem testLinearityMain_usage (w : ℕ → W128) (prog : List Char) : testLinearityMain w prog [] =
    some (prog ++ "\n mexp,pos1,sl1,sl2,sr1,sr2,msk1,msk2,msk3,msk4,parity1,parity2,parity3,parity4\n".toList, 1) := rfl

/-- The parameters of the published SFMT19937. -/
example (w : ℕ → W128) (prog : List Char) : ∃ l : Fields, getString l =
      "19937,122,18,1,11,1,dfffffef,ddfecb7f,bffaffff,bffffff6,00000001,00000000,00000000,13c9e684,".toList ∧
    testLinearityMain w prog [getString l] =
      some (getString l ++ '\n' :: (List.replicate 304 '.' ++ "\nLinearity Test OK\n".toList), 0) := by
  refine ⟨⟨19937, ⟨122, 18, 1, 11, 1, 0xdfffffef, 0xddfecb7f, 0xbffaffff, 0xbffffff6⟩, 1, 0, 0, 0x13c9e684⟩, by decide +kernel, ?_⟩
  have h := testLinearityMain_correct w prog (l := ⟨19937, ⟨122, 18, 1, 11, 1, 0xdfffffef, 0xddfecb7f, 0xbffaffff, 0xbffffff6⟩,
    1, 0, 0, 0x13c9e684⟩) (by decide) (by decide)
    ⟨⟨by decide, by decide, by decide, by decide, by decide, by decide⟩, by decide, by decide⟩ [] []
  rw [List.append_nil] at h
  exact h

end MTT.SFMT

namespace MTT.DSFMT

open Lin W128 Text

/-- **C100.**  Every start mode with every weight mode, the weights descending. -/
theorem lineModeList_all : lineModeList.length = 4 ∧ ∀ k : ℕ, k < 4 → lineModeList[k]? = some (((k / 2 : ℕ) : ℤ), 2 - ((k % 2 : ℕ) : ℤ)) := by
  decide

/-- **C100.**  `TestLinearity` accepts a dSFMT object in every start mode and every weight mode, whatever its state is. -/
theorem linear_modes {n : ℕ} {s : St} (hs : Inv n s) (i j : ℤ) :
    testLinearity (ops n) (fun s v => seed v s) (setWeightMode j (setStartMode i s)) = true :=
  testLinearity_complete (linGen (n := n) ⟨s.param, i, j⟩) _
    (fun _ v ht => ⟨(seed_inv ht.1 v).1, (seed_inv ht.1 v).2.trans ht.2⟩)
    ⟨⟨hs.two, hs.size, hs.index, hs.pos_pos, hs.pos, hs.sl1⟩, rfl⟩

/-- **C100.**  `test_linearity` of dSFMTdc on a text that begins with admissible parameters prints them, 76 dots and the
message of success, for all contents of the seed words. -/
theorem testLinearityMain_correct {n : ℕ} (w : ℕ → W128) (prog : List Char) {l : Fields} (h1 : 336 ≤ l.mexp)
    (h3 : l.mexp < 2 ^ 30) (hn : (l.mexp - 128) / 104 + 1 = n) (hp : ParOK n l.param) (rest : List Char)
    (args : List (List Char)) : testLinearityMain w prog ((getString l ++ rest) :: args) =
      some (getString l ++ '\n' :: (List.replicate 76 '.' ++ "\nLinearity Test OK\n".toList), 0) := by
  have hg := gen_inv h1 hn rfl hp
  unfold testLinearityMain
  dsimp only
  rw [parse_getString l (by omega) (by have := hp.2.2.1; omega) (by have := hp.2.2.2.2; omega) rest]
  dsimp only
  rw [hn, lineSeeds_pass (P := fun s => Inv n s) (fun v s hs => (seed_inv hs v).1) (fun s hs i j => linear_modes hs i j) w
    lineModeList true 19 1 l.gen hg.toInv]
  rfl

/-- Without arguments the usage is printed. -/
theorem testLinearityMain_usage (w : ℕ → W128) (prog : List Char) : testLinearityMain w prog [] =
    some (prog ++ "\n mexp,pos1,sl1,msk1,msk2,fix1,fix2,parity1,parity2\n".toList, 1) := rfl

/-- The parameters of the published dSFMT2-521. -/
example (w : ℕ → W128) (prog : List Char) : ∃ l : Fields, l.mexp = 521 ∧ l.param.sl1 = 25 ∧
    testLinearityMain w prog [getString l] = some (getString l ++ '\n' :: (List.replicate 76 '.' ++ "\nLinearity Test OK\n".toList), 0) := by
  refine ⟨⟨521, ⟨3, 25, 0x000fbfefff77efff, 0x000ffeebfbdfbfdf⟩, 0xcfb393d661638469, 0xc166867883ae2adb, 0xccaa588000000000,
    0x0000000000000001⟩, rfl, rfl, ?_⟩
  have h := testLinearityMain_correct (n := 4) w prog (l := ⟨521, ⟨3, 25, 0x000fbfefff77efff, 0x000ffeebfbdfbfdf⟩, 0xcfb393d661638469,
    0xc166867883ae2adb, 0xccaa588000000000, 0x0000000000000001⟩) (by decide) (by decide) (by decide) (by unfold ParOK MskOK; decide) [] []
  rw [List.append_nil] at h
  exact h

end MTT.DSFMT

namespace MTT.MTGP

open Lin

/-- The object with the members that no output depends on changed: exponent and rows of the matrices. -/
def strip (s : St) : St := { s with mexp := 11217, tbl := fun _ => 0, tmp := fun _ => 0 }

theorem strip_generate (s : St) : (generate (strip s)).1 = strip (generate s).1 ∧ (generate (strip s)).2 = (generate s).2 :=
  ⟨rfl, rfl⟩

theorem strip_add (s t : St) : add (strip s) (strip t) = strip (add s t) := rfl

theorem strip_seed (v : BitVec 32) (s : St) : seed v (strip s) = strip (seed v s) := rfl

theorem strip_test1 : ∀ k s, test1Loop (ops 11213) k (strip s) = test1Loop (ops 11213) k s
  | 0, _ => rfl
  | k + 1, s => by
    have e : ∀ t, (ops 11213).generate t = generate t := fun _ => rfl
    rw [test1Loop, test1Loop]
    simp only [e, (strip_generate s).1, (strip_generate s).2, strip_test1 k]

theorem strip_test2 : ∀ k s t u, test2Loop (ops 11213) k (strip s) (strip t) (strip u) = test2Loop (ops 11213) k s t u
  | 0, _, _, _ => rfl
  | k + 1, s, t, u => by
    have e : ∀ t, (ops 11213).generate t = generate t := fun _ => rfl
    rw [test2Loop, test2Loop]
    simp only [e, (strip_generate s).1, (strip_generate s).2, (strip_generate t).1, (strip_generate t).2,
      (strip_generate u).1, (strip_generate u).2, strip_test2 k]

theorem strip_test (s : St) : testLinearity (ops 11213) (fun s v => seed v s) (strip s) =
    testLinearity (ops 11213) (fun s v => seed v s) s := by
  have e : ∀ s t, (ops 11213).add s t = add s t := fun _ _ => rfl
  unfold testLinearity test1 test2
  simp only [strip_seed, e, strip_add, strip_test1, strip_test2]

/-- **C100.**  The check program of MTGPDC ends with 0, whatever is not initialised; and it would do so for every table
`tbl`, which the tested object does not use. -/
theorem lineTest_passes (t0 t1 t2 t3 : BitVec 32) (jpos jsh1 jsh2 : ℕ) (jmask : BitVec 32) (junk : ℕ → BitVec 32) :
    lineTest t0 t1 t2 t3 jpos jsh1 jsh2 jmask junk = some 0 := by
  unfold lineTest ctor
  dsimp only
  rw [if_pos (by decide), Option.map_some]
  generalize hg : setParam _ _ = g
  have hi : Inv 351 15 (strip g) ∧ par (strip g) = ⟨7, 13, 4, fun _ => 0, fun _ => 0, false⟩ := by
    subst hg
    refine ⟨⟨rfl, rfl, by decide, by show 351 - 1 < 351; decide, by show (0xffff8000 : BitVec 32) = _; decide,
      by show 2 ≤ 7; decide, by show 7 < 351; decide, fun i _ => ?_, fun i _ => ?_⟩, rfl⟩
    all_goals simp [strip, setParam, linePrm, comb]
  have h := testLinearity_complete (linGen (n := 351) (r := 15) 11213 ⟨7, 13, 4, fun _ => 0, fun _ => 0, false⟩ rfl)
    (fun s v => seed v s) (fun s v hs => ⟨(seed_inv hs.1 v).1, (seed_inv hs.1 v).2.trans hs.2⟩) hi
  rw [strip_test] at h
  rw [if_pos h]

theorem testLinearityMain_passes (jpos jsh1 jsh2 : ℕ) (jmask : BitVec 32) (junk : ℕ → BitVec 32) :
    testLinearityMain jpos jsh1 jsh2 jmask junk = some 0 := lineTest_passes _ _ _ _ _ _ _ _ _

/-- **C100.**  The tested object is not the generator of the given parameters: its recursion adds nothing from the table,
although `tbl` is not zero, and `mask` is not the mask of the exponent 11213, which the constructor had set. -/
theorem tested_object (jpos jsh1 jsh2 : ℕ) (jmask : BitVec 32) (junk : ℕ → BitVec 32) :
    ∃ s, ctor 11213 0 jpos jsh1 jsh2 jmask junk = some s ∧ s.mask = 0xfff80000 ∧
      ∀ t, t = setParam (linePrm 0x6b657038 0xbae56977 0xa3200006 0x20ac) s → t.mask = 0xffff8000 ∧
        (∀ x y z, recur t x y z = (((x &&& 0xffff8000) ^^^ y) ^^^ (((x &&& 0xffff8000) ^^^ y) <<< 13)) ^^^ (z >>> 4)) ∧
        fillTable t.p t.tbl 16 1 = 0x6b657038 ∧ ∀ n r, ¬ Inv n r t := by
  unfold ctor
  dsimp only
  rw [if_pos (by decide)]
  refine ⟨_, rfl, by show (~~~ (0 : BitVec 32)) <<< _ = _; decide, fun t ht => ⟨by rw [ht]; rfl, fun x y z => ?_, ?_, fun n r h => ?_⟩⟩
  · rw [ht]
    show _ ^^^ (0#32) = _
    rw [BitVec.xor_zero]
    rfl
  · rw [ht]
    show fillTable (fun _ => 0) (linePrm 0x6b657038 0xbae56977 0xa3200006 0x20ac).tbl 16 1 = _
    decide +kernel
  · have h1 := h.p 1 (by decide)
    rw [ht] at h1
    revert h1
    show ¬ (0 : BitVec 32) = comb (linePrm 0x6b657038 0xbae56977 0xa3200006 0x20ac).tbl 1
    decide +kernel

end MTT.MTGP
