import Verif.Samples.EquidistMain
import Verif.Samples.SFMTToolsProps
import Verif.Samples.DSFMTToolsProps
import Verif.Samples.RMTToolsProps
import Verif.Samples.SFMTDCExample
import Verif.Samples.DSFMTDCExample
import Verif.Samples.LineLayout
import Verif.Samples.OptionsProps
import Verif.SIMD.Sum

/-!
# C103: the programs calc_equidist of sfmtdc, dSFMTdc and RMT from the command line to the text
-/

namespace MTT.EquidistMain

open Text Options

/-! ### The options -/

/-- The program knows the option, and a seed is in the range of 64 bits. -/
def Fine (hasR : Bool) : Ev → Prop
  | .verbose => True
  | .reverse => hasR = true
  | .seed a => (strtoull a).2 = false
  | .bad => False

/-- The seed: the argument of the last `-s`, or what the clock says. -/
def seedOf (clock : BitVec 64) (evs : List Ev) : BitVec 64 :=
  ((evs.filterMap fun e => match e with | .seed a => some (strtoull a).1 | _ => none).getLast?).getD clock

theorem seedOf_cons (c : BitVec 64) (e : Ev) (evs : List Ev) :
    seedOf c (e :: evs) = seedOf (match e with | .seed a => (strtoull a).1 | _ => c) evs := by
  cases e <;> simp [seedOf, List.getLast?_cons]

theorem read_good {hasR : Bool} {evs : List Ev} (hf : ∀ e ∈ evs, Fine hasR e) :
    ∀ {o : Opt}, o.error = false → o.errno = false →
      (read hasR o evs).error = false ∧ (read hasR o evs).seed = seedOf o.seed evs ∧
      ((read hasR o evs).verbose = true ↔ o.verbose = true ∨ Ev.verbose ∈ evs) ∧
      ((read hasR o evs).reverse = true ↔ o.reverse = true ∨ Ev.reverse ∈ evs) := by
  induction evs with
  | nil => intro o h1 h2; exact ⟨h1, rfl, by simp [read], by simp [read]⟩
  | cons e evs ih =>
    intro o h1 h2
    have he := hf e (by simp)
    have hr : read hasR o (e :: evs) = read hasR (step hasR o e) evs := by
      unfold read
      rw [List.foldl_cons, if_neg (by rw [h1]; decide)]
    have ih' := ih (fun x hx => hf x (by simp [hx])) (o := step hasR o e)
    rw [hr]
    cases e with
    | bad => exact absurd he id
    | verbose =>
      obtain ⟨a1, a2, a3, a4⟩ := ih' h1 h2
      refine ⟨a1, a2.trans (seedOf_cons o.seed .verbose evs).symm, ?_, ?_⟩
      · rw [a3]; simp [step]
      · rw [a4]; simp [step]
    | reverse =>
      have hR : hasR = true := he
      subst hR
      obtain ⟨a1, a2, a3, a4⟩ := ih' h1 h2
      refine ⟨a1, a2.trans (seedOf_cons o.seed .reverse evs).symm, ?_, ?_⟩
      · rw [a3]; simp [step]
      · rw [a4]; simp [step]
    | seed a =>
      have ha : (strtoull a).2 = false := he
      obtain ⟨a1, a2, a3, a4⟩ := ih' (by show (_ || _ || _) = false; rw [h1, h2, ha]; rfl)
        (by show (_ || _) = false; rw [h2, ha]; rfl)
      refine ⟨a1, a2.trans (seedOf_cons o.seed (.seed a) evs).symm, ?_, ?_⟩
      · rw [a3]; simp [step]
      · rw [a4]; simp [step]

theorem read_stuck {hasR : Bool} {o : Opt} (h : o.error = true) (evs : List Ev) : (read hasR o evs).error = true := by
  induction evs with
  | nil => exact h
  | cons e evs ih =>
    unfold read at ih ⊢
    rw [List.foldl_cons, if_pos h]
    exact ih

theorem read_bad {hasR : Bool} {evs : List Ev} (hf : ¬ ∀ e ∈ evs, Fine hasR e) :
    ∀ {o : Opt}, o.error = false → o.errno = false → (read hasR o evs).error = true := by
  induction evs with
  | nil => exact absurd (fun e he => absurd he (by simp)) hf
  | cons e evs ih =>
    intro o h1 h2
    have hr : read hasR o (e :: evs) = read hasR (step hasR o e) evs := by
      unfold read
      rw [List.foldl_cons, if_neg (by rw [h1]; decide)]
    rw [hr]
    by_cases he : Fine hasR e
    · have ih' := ih (fun h => hf fun x hx => by rcases List.mem_cons.1 hx with rfl | hx; exacts [he, h x hx])
        (o := step hasR o e)
      cases e with
      | bad => exact absurd he id
      | verbose => exact ih' h1 h2
      | reverse =>
        have hR : hasR = true := he
        subst hR
        exact ih' h1 h2
      | seed a =>
        have ha : (strtoull a).2 = false := he
        exact ih' (by show (_ || _ || _) = false; rw [h1, h2, ha]; rfl) (by show (_ || _) = false; rw [h2, ha]; rfl)
    · refine read_stuck ?_ evs
      cases e with
      | bad => rfl
      | verbose => exact absurd trivial he
      | reverse =>
        cases hasR with
        | true => exact absurd rfl he
        | false => rfl
      | seed a =>
        have ha : (strtoull a).2 = true := by
          cases h : (strtoull a).2 with
          | true => rfl
          | false => exact absurd h he
        show (_ || _ || _) = true
        rw [ha, Bool.or_true]

/-! ### The text -/

/-- Specification of a line of a table: `k` and the defect. -/
def lineText (mexp : ℕ) (v : ℕ) (k : ℤ) : String :=
  "k(" ++ toString (v : ℤ) ++ ") = " ++ toString k ++ "\td(" ++ toString (v : ℤ) ++ ") = " ++
    toString (((mexp / v : ℕ) : ℤ) - k) ++ "\n"

/-- Specification of a table: the lines for `v = 1, …, L`. -/
def tableText (mexp L : ℕ) (k : ℕ → ℤ) : List Char := ((List.range' 1 L).map fun v => (lineText mexp v (k v)).toList).flatten

theorem rows_eq (mexp L : ℕ) (veq : ℕ → ℤ) : rows mexp veq L = tableText mexp L fun v => veq (v - 1) := by
  unfold rows tableText
  rw [List.range'_eq_map_range, List.map_map, ← List.flatMap_def]
  congr 1
  funext j
  show row mexp veq j = (lineText mexp (1 + j) (veq (1 + j - 1))).toList
  rw [show 1 + j - 1 = j by omega, Nat.add_comm 1 j]
  unfold row lineText
  simp only [String.toList_append, ← decInt_text]
  rfl

theorem tableText_congr {mexp L : ℕ} {k k' : ℕ → ℤ} (h : ∀ v, 1 ≤ v → v ≤ L → k v = k' v) :
    tableText mexp L k = tableText mexp L k' := by
  refine congrArg List.flatten (List.map_congr_left fun v hv => ?_)
  rw [List.mem_range'_1] at hv
  exact congrArg (fun z => (lineText mexp v z).toList) (h v hv.1 (by omega))

end MTT.EquidistMain

namespace MTT.SIMD

open W128 PIS Polynomial Finset

variable {S : Type} [AddCommGroup S] [Module (ZMod 2) S] {T : S →ₗ[ZMod 2] S} {s0 : S}
  {σ : Type} {G : SIMDOps σ} {A : Alg} {lsb : Bool} {E L q mexp v : ℕ} {pos : ℕ → ℕ → ℕ} {x : ℕ → S →ₗ[ZMod 2] V}
  {C : Submodule (ZMod 2) S}

/-- The numbers `m v` of a table and their sum: `m v` is the value of the formula of C63, at most the dimension of
equidistribution and short of it by less than `E`. -/
def SimdTable (E L mexp : ℕ) (x : ℕ → S →ₗ[ZMod 2] V) (C : Submodule (ZMod 2) S) (m : ℕ → ℤ) (d : ℤ) : Prop :=
  (∀ v, 1 ≤ v → v ≤ L → SimdVal E x C v (m v) ∧ ∃ k : ℕ, IsGreatest {j | EqdAll x C v j} k ∧
    0 ≤ m v ∧ m v ≤ k ∧ (k : ℤ) < m v + E) ∧ d = ∑ v ∈ Icc 1 L, (((mexp / v : ℕ) : ℤ) - m v)

/-- The dimensions of equidistribution `k v` and the sum of the defects. -/
def EqdTable (L mexp : ℕ) (x : ℕ → S →ₗ[ZMod 2] V) (C : Submodule (ZMod 2) S) (k : ℕ → ℤ) (d : ℤ) : Prop :=
  (∀ v, 1 ≤ v → v ≤ L → ∃ j : ℕ, k v = j ∧ IsGreatest {j | EqdAll x C v j} j) ∧
    d = ∑ v ∈ Icc 1 L, (((mexp / v : ℕ) : ℤ) - k v)

theorem SimdTable.sum {m : ℕ → ℤ} {d : ℤ} (h : SimdTable E L mexp x C m d) : SimdSum E L mexp x C d := by
  have hk : ∀ v, ∃ k : ℕ, 1 ≤ v → v ≤ L → IsGreatest {j | EqdAll x C v j} k ∧
      0 ≤ m v ∧ m v ≤ k ∧ (k : ℤ) < m v + E := by
    intro v
    by_cases hv : 1 ≤ v ∧ v ≤ L
    · obtain ⟨-, k, hk⟩ := h.1 v hv.1 hv.2
      exact ⟨k, fun _ _ => hk⟩
    · exact ⟨0, fun a b => absurd ⟨a, b⟩ hv⟩
  choose k hk using hk
  exact ⟨k, m, fun v hv1 hv2 => ⟨(hk v hv1 hv2).1, (hk v hv1 hv2).2.1, (hk v hv1 hv2).2.2.1, (hk v hv1 hv2).2.2.2,
    (h.1 v hv1 hv2).1⟩, h.2⟩

theorem EqdTable.sum {k : ℕ → ℤ} {d : ℤ} (h : EqdTable L mexp x C k d) : EqdSum L mexp x C d := by
  refine ⟨fun v => (k v).toNat, fun v hv1 hv2 => ?_, ?_⟩
  · obtain ⟨j, h1, h2⟩ := h.1 v hv1 hv2
    dsimp only
    rw [h1, Int.toNat_natCast]
    exact h2
  · rw [h.2]
    refine sum_congr rfl fun v hv => ?_
    rw [mem_Icc] at hv
    obtain ⟨j, h1, -⟩ := h.1 v hv.1 hv.2
    dsimp only
    rw [h1, Int.toNat_natCast]

/-- A table is determined by the states. -/
theorem SimdTable.unique {m m' : ℕ → ℤ} {d d' : ℤ} (h : SimdTable E L mexp x C m d) (h' : SimdTable E L mexp x C m' d') :
    (∀ v, 1 ≤ v → v ≤ L → m v = m' v) ∧ d = d' :=
  ⟨fun v h1 h2 => (h.1 v h1 h2).1.unique (h'.1 v h1 h2).1, h.sum.unique h'.sum⟩

theorem EqdTable.unique {m m' : ℕ → ℤ} {d d' : ℤ} (h : EqdTable L mexp x C m d) (h' : EqdTable L mexp x C m' d') :
    (∀ v, 1 ≤ v → v ≤ L → m v = m' v) ∧ d = d' := by
  refine ⟨fun v h1 h2 => ?_, h.sum.unique h'.sum⟩
  obtain ⟨j, e1, e2⟩ := h.1 v h1 h2
  obtain ⟨j', e1', e2'⟩ := h'.1 v h1 h2
  rw [e1, e1', e2.unique e2']

/-- Only the first `L` bits of the words matter. -/
theorem SimdTable.congr {y : ℕ → S →ₗ[ZMod 2] V} (hxy : ∀ k s b, b < L → x k s b = y k s b) {m : ℕ → ℤ} {d : ℤ}
    (h : SimdTable E L mexp x C m d) : SimdTable E L mexp y C m d := by
  have key : ∀ v j k, v ≤ L → (Eqd x C v j k ↔ Eqd y C v j k) := by
    intro v j k hv
    unfold Eqd
    refine forall_congr' fun a => exists_congr fun s => and_congr_right fun _ => ?_
    refine forall_congr' fun i => imp_congr_right fun _ => forall_congr' fun b => imp_congr_right fun hb => ?_
    rw [hxy _ _ _ (by omega)]
  have keyA : ∀ v k, v ≤ L → (EqdAll x C v k ↔ EqdAll y C v k) := by
    intro v k hv
    unfold EqdAll
    exact forall_congr' fun j => key v j k hv
  refine ⟨fun v hv1 hv2 => ?_, h.2⟩
  obtain ⟨⟨K, a5, a6⟩, k, a1, a2⟩ := h.1 v hv1 hv2
  refine ⟨⟨K, fun j => ?_, a6⟩, k, ?_, a2⟩
  · simpa only [key v _ _ hv2] using a5 j
  · simpa only [keyA v _ hv2] using a1

/-- **C63.**  The array and the number that `calc_SIMD_equidistribution` delivers. -/
theorem calcSIMD_table (hl : Layout A lsb L E q pos) (H : Blocks x (cyc T s0) T E) {rand : σ}
    (hM : ∀ a < E, ∀ b, 1 ≤ b → b ≤ E → Mode G.gen L E pos
      (G.gen.generate (G.setWeight (q * b : ℕ) (G.setStart (q * a : ℕ) rand))).1 a b x T s0)
    {χ : (ZMod 2)[X]} (hχ : χ.Monic) (hc : aeval T χ s0 = 0) (hB : χ.natDegree ≤ G.gen.bitSize)
    {calc1pos : W128 → Int} (h1 : IsCalc1pos calc1pos) {fuel : ℕ} (hf : 128 * (129 * χ.natDegree) + 129 ≤ fuel)
    (hm : χ.natDegree ≤ mexp) (hm2 : mexp < 2 ^ 31) (veq0 : ℕ → ℤ) :
    ∃ veq sum, calcSIMD G A calc1pos fuel mexp L rand veq0 = .ok (veq, sum) ∧
      SimdTable E L mexp (fun k => (flip L lsb).comp (x k)) (cyc T s0) (fun v => veq (v - 1)) sum := by
  obtain ⟨veq, sum, e1, e2, -, e3⟩ := calcSIMD_bounds_partial hl H hM hχ hc hB h1 hf hm hm2 le_rfl veq0
  obtain ⟨veq', sum', f1, f2, -⟩ := calcSIMD_formula hl H hM hχ hc hB h1 hf hm hm2 le_rfl veq0
  have : (veq', sum') = (veq, sum) := by
    have := f1.symm.trans e1
    injection this
  rw [Prod.mk.injEq] at this
  obtain ⟨rfl, rfl⟩ := this
  exact ⟨veq', sum', e1, fun v hv1 hv2 => ⟨f2 v hv1 hv2, e2 v hv1 hv2⟩, e3⟩

end MTT.SIMD

namespace MTT.SFMT

open Polynomial PIS Search W128 Parity Anni SIMD Text EquidistMain
open Options (strtoull)

variable {mexp : ℕ} {mps : MPS}

/-- The three tables: what the numbers say of the words that the parameters `p` produce in the component of `f`, read from the
most significant bit or (`lsb`) from the least significant. -/
structure Tables (mexp : ℕ) (p : Par) (f : (ZMod 2)[X]) (lsb : Bool) (m32 m64 k128 : ℕ → ℤ) (d32 d64 d128 : ℤ) : Prop where
  irr : Irreducible f
  deg : f.natDegree = mexp
  dim : Module.finrank (ZMod 2) (Large (mexp / 128 + 1) p f) = mexp
  t32 : SimdTable 4 32 mexp (fun k => (SIMD.flip 32 lsb).comp (stream32 (mexp / 128 + 1) p k))
    (Large (mexp / 128 + 1) p f) m32 d32
  t64 : SimdTable 2 64 mexp (fun k => (SIMD.flip 64 lsb).comp (stream64 (mexp / 128 + 1) p k))
    (Large (mexp / 128 + 1) p f) m64 d64
  t128 : EqdTable 128 mexp (fun k => (SIMD.flip 128 lsb).comp (stream128 (mexp / 128 + 1) p k))
    (Large (mexp / 128 + 1) p f) k128 d128

theorem Tables.measured {p : Par} {f : (ZMod 2)[X]} {lsb : Bool} {m32 m64 k128 : ℕ → ℤ} {d32 d64 d128 : ℤ}
    (h : Tables mexp p f lsb m32 m64 k128 d32 d64 d128) : Measured mexp p f lsb d32 d64 d128 :=
  ⟨h.dim, h.t32.sum, h.t64.sum, h.t128.sum⟩

/-- The three measurements with their arrays. -/
theorem tables_correct (h1 : 256 ≤ mexp) (h3 : mexp < 2 ^ 30) (J : Junk) {g : St} (hg : Inv1 (mexp / 128 + 1) mexp g)
    {f : (ZMod 2)[X]} (hf : Irreducible f) (hdeg : f.natDegree = mexp)
    (hx : IsVecMinpoly (T (mexp / 128 + 1) ⟨g.param, 0, 4, false⟩) (den (mexp / 128 + 1) g) f) (lsb : Bool) :
    ∃ r128 veq32 d32 veq64 d64,
      getAllEquidist (ops (mexp / 128 + 1)) calc1posWrap { g with rev := lsb } 128 mexp (128 * (129 * mexp) + 129) J.veq =
        .ok r128 ∧
      calcSIMD (simdOps (mexp / 128 + 1)) (simdAlg info32 lsb) calc1posWrap (128 * (129 * mexp) + 129) mexp 32 g J.veq32 =
        .ok (veq32, d32) ∧
      calcSIMD (simdOps (mexp / 128 + 1)) (simdAlg info64 lsb) calc1posWrap (128 * (129 * mexp) + 129) mexp 64 g J.veq64 =
        .ok (veq64, d64) ∧
      Tables mexp g.param f lsb (fun v => veq32 (v - 1)) (fun v => veq64 (v - 1)) (fun v => r128.veq (v - 1)) d32 d64
        r128.sum := by
  obtain ⟨hvec, hcyc, hrank⟩ := cyc_large hg (by omega) hf hdeg hx
  generalize hn : mexp / 128 + 1 = n at *
  have hmon := monic_of_ne hf.ne_zero
  have hann : aeval (T1 n g.param) f (Ring.vec n g.state g.index) = 0 := (hvec.2 f).2 (dvd_refl f)
  let gr : St := { g with rev := lsb }
  have hgr : Inv n gr := ⟨hg.three, hg.size, hg.index, hg.pos_pos, hg.pos, hg.ok⟩
  obtain ⟨q, e1, e2, e3⟩ := equidist (s := gr) hgr hg.weight hmon hann hdeg.le (by omega) J.veq
  obtain ⟨veq32, sum32, e4, e5⟩ := calcSIMD_table (G := simdOps n) (Layout.w32 lsb)
    (blocks32 hg.three hg.pos_pos hg.pos hg.ok _) (rand := g) (fun a ha b h1 h2 => mode32 hg.toInv hg.rev ha h1 h2) hmon
    hann (by show _ ≤ n * 128; omega) isCalc1pos_128 (fuel := 128 * (129 * mexp) + 129) (by omega) hdeg.le (by omega)
    J.veq32
  obtain ⟨veq64, sum64, e6, e7⟩ := calcSIMD_table (G := simdOps n) (Layout.w64 lsb)
    (blocks64 hg.three hg.pos_pos hg.pos hg.ok _) (rand := g) (fun a ha b h1 h2 => mode64 hg.toInv hg.rev ha h1 h2) hmon
    hann (by show _ ≤ n * 128; omega) isCalc1pos_128 (fuel := 128 * (129 * mexp) + 129) (by omega) hdeg.le (by omega)
    J.veq64
  refine ⟨q, veq32, sum32, veq64, sum64, e1, e4, e6, ?_⟩
  rw [hcyc] at e5 e7
  subst hn
  refine ⟨hf, hdeg, hrank, e5, e7, fun v hv1 hv2 => ⟨_, rfl, ?_⟩, e3⟩
  have h := e2 v hv1 hv2
  have hc : cfg gr = ⟨g.param, 0, 4, lsb⟩ := by
    unfold cfg
    rw [Cfg.mk.injEq]
    exact ⟨rfl, hg.start, hg.weight, rfl⟩
  have hd : den (mexp / 128 + 1) gr = (Ring.vec (mexp / 128 + 1) g.state g.index, 0) := den_ring hg.weight
  rw [hc, hd, show gr.rev = lsb from rfl] at h
  rw [← hcyc]
  have hset : {k | EqdAll (fun k => (SIMD.flip 128 lsb).comp (stream128 (mexp / 128 + 1) g.param k))
      (cyc (T1 (mexp / 128 + 1) g.param) (Ring.vec (mexp / 128 + 1) g.state g.index)) v k} = _ :=
    Set.ext fun k => (equidist_stream hg.three hg.ok hg.pos_pos hg.pos lsb _ hv2 k).symm
  rw [hset]
  exact h

/-- Specification of the text. -/
def equidistText (verbose reverse : Bool) (l : Line) (m32 m64 k128 : ℕ → ℤ) : List Char :=
  let lsb := if reverse then " from LSB" else ""
  let title := fun b : String => (b ++ "bit dimension of equidistribution at v-bit accuracy k(v)" ++ lsb ++ "\n").toList
  (if reverse then "Equidistribution from LSB\n".toList else []) ++ l.text ++ ['\n'] ++
    if verbose then title "32" ++ tableText l.mexp 32 m32 ++ title "64" ++ tableText l.mexp 64 m64 ++
      title "128" ++ tableText l.mexp 128 k128 else []

/-- **C103.**  `calc_equidist` of sfmtdc on a command line with the first operand beginning with admissible parameters.  If an
option is unknown or a seed out of range, it ends with -1 and prints nothing.  Otherwise it ends with -1 and prints nothing
exactly if the seed has no large component; if it has one, it ends with 0 and prints the parameters and the three sums, with
`-r` for the words read from the least significant bit and the word `LSB` in the headings, with `-v` also the three tables;
the sums are those of the defects in the tables. -/
theorem equidistMain_correct (hm : MinPolySeqSpec mps) (J : Junk) (hi clock : BitVec 64) (evs : List Ev) {l : Fields}
    (h1 : 256 ≤ l.mexp) (h3 : l.mexp < 2 ^ 30) (hp : ParOK l.param ∧ 1 ≤ l.param.pos1 ∧ l.param.pos1 < l.mexp / 128 + 1)
    (rest : List Char) :
    ((¬ ∀ e ∈ evs, Fine true e) → equidistMain mps J hi clock evs (some (getString l ++ rest)) = .ends (-1) []) ∧
    ((∀ e ∈ evs, Fine true e) →
      (¬ HasLarge l.mexp (seed (mk64 (seedOf clock evs) hi) l.gen) →
        equidistMain mps J hi clock evs (some (getString l ++ rest)) = .ends (-1) []) ∧
      (HasLarge l.mexp (seed (mk64 (seedOf clock evs) hi) l.gen) →
        ∃ (verbose reverse : Bool) (f : (ZMod 2)[X]) (m32 m64 k128 : ℕ → ℤ) (d32 d64 d128 : ℤ),
          (verbose = true ↔ Ev.verbose ∈ evs) ∧ (reverse = true ↔ Ev.reverse ∈ evs) ∧
          Tables l.mexp l.param f reverse m32 m64 k128 d32 d64 d128 ∧
          equidistMain mps J hi clock evs (some (getString l ++ rest)) =
            .ends 0 (equidistText verbose reverse ⟨l, d32, d64, d128⟩ m32 m64 k128))) := by
  constructor
  · intro hbad
    unfold equidistMain
    dsimp only
    rw [parse_ok h3 hp rest]
    dsimp only
    rw [if_pos (read_bad hbad rfl rfl)]
  intro hgood
  obtain ⟨b1, b2, b3, b4⟩ := read_good hgood (o := init clock) rfl rfl
  have b3' : (read true (init clock) evs).verbose = true ↔ Ev.verbose ∈ evs := by
    rw [b3]; exact ⟨fun h => h.resolve_left Bool.false_ne_true, .inr⟩
  have b4' : (read true (init clock) evs).reverse = true ↔ Ev.reverse ∈ evs := by
    rw [b4]; exact ⟨fun h => h.resolve_left Bool.false_ne_true, .inr⟩
  have b2' : (read true (init clock) evs).seed = seedOf clock evs := b2
  unfold equidistMain
  dsimp only
  rw [parse_ok h3 hp rest]
  dsimp only
  rw [if_neg (by rw [b1]; decide), b2']
  generalize mk64 (seedOf clock evs) hi = w
  revert b3' b4'
  generalize (read true (init clock) evs).reverse = reverse
  generalize (read true (init clock) evs).verbose = verbose
  intro b3' b4'
  have hg := gen_inv h1 rfl hp
  have hs : Inv1 (l.mexp / 128 + 1) l.mexp (seed w l.gen) :=
    ⟨(seed_inv hg.toInv w).1, hg.start, hg.weight, hg.rev, hg.mexp⟩
  have hR := Anni.RedGen.field (redGen1 hs) (fun t => (t.parity1, t.parity2, t.parity3, t.parity4)) (fun _ => rfl)
    (fun _ _ => rfl) (fun _ _ => rfl) (fun _ => rfl) (fun _ _ => rfl) (l.parity1, l.parity2, l.parity3, l.parity4)
  obtain ⟨g2, b, p, a1, a2, a3, a4⟩ := anniS_correct hm hR (by decide) (by show 1 ≤ l.mexp; omega)
    (by show (l.mexp / 128 + 1) * 128 < 2 * l.mexp; omega)
    (obs rfl hs.three hs.pos_pos hs.pos hs.ok) (s := seed w l.gen) ⟨⟨hs, rfl⟩, rfl⟩ (den_full hs.weight)
  rw [a1]
  cases b with
  | false =>
    refine ⟨fun _ => rfl, ?_⟩
    rintro ⟨f, p', f1, f2, f3, f4⟩
    rw [f3.unique a2] at f4
    exact absurd f4 ((a3 rfl).2 f f1 f2)
  | true =>
    obtain ⟨f, f1, f2, f3, ⟨⟨⟨i1, i2⟩, i3⟩, i4, i5⟩⟩ := a4 rfl
    refine ⟨fun h => absurd ⟨f, p, f1, f2, a2, f3⟩ h, fun _ => ?_⟩
    have i2' : g2.param = l.param := i2
    have i3' : (g2.parity1, g2.parity2, g2.parity3, g2.parity4) = (l.parity1, l.parity2, l.parity3, l.parity4) := i3
    rw [Prod.mk.injEq, Prod.mk.injEq, Prod.mk.injEq] at i3'
    obtain ⟨j1, j2, j3, j4⟩ := i3'
    have i5' : IsVecMinpoly (T (l.mexp / 128 + 1) ⟨g2.param, 0, 4, false⟩) (den (l.mexp / 128 + 1) g2) f := by
      rw [i2']; exact i5
    obtain ⟨r128, veq32, d32, veq64, d64, e1, e2, e3, e4⟩ := tables_correct h1 h3 J i1 f1 f2 i5' reverse
    rw [i2'] at e4
    refine ⟨verbose, reverse, f, _, _, _, d32, d64, r128.sum, b3', b4', e4, ?_⟩
    have hr : (if reverse then { g2 with rev := true } else g2) = { g2 with rev := reverse } := by
      cases reverse with
      | false => rw [if_neg (by decide), ← i1.rev]
      | true => rfl
    have hr2 : { { g2 with rev := reverse } with rev := false } = g2 := by
      show { g2 with rev := false } = g2
      rw [← i1.rev]
    dsimp only
    rw [hr, e1]
    dsimp only
    rw [hr2, e2]
    dsimp only
    rw [e3]
    dsimp only
    have hfl : fieldsOf g2 = l := by
      unfold fieldsOf
      rw [i1.mexp, i2', j1, j2, j3, j4]
    rw [hfl]
    congr 1
    unfold equidistText tables Line.text
    dsimp only
    rw [rows_eq, rows_eq, rows_eq]
    have t1 : "32bit dimension of equidistribution at v-bit accuracy k(v)".toList =
      "32".toList ++ "bit dimension of equidistribution at v-bit accuracy k(v)".toList := by decide
    have t2 : "64bit dimension of equidistribution at v-bit accuracy k(v)".toList =
      "64".toList ++ "bit dimension of equidistribution at v-bit accuracy k(v)".toList := by decide
    have t3 : "128bit dimension of equidistribution at v-bit accuracy k(v)".toList =
      "128".toList ++ "bit dimension of equidistribution at v-bit accuracy k(v)".toList := by decide
    have t4 : "\n".toList = ['\n'] := by decide
    have t5 : (if reverse then " from LSB" else "").toList = if reverse then " from LSB".toList else [] := by
      cases reverse <;> decide
    simp only [String.toList_append, t1, t2, t3, t4, t5, List.append_assoc]

/-- **C103.**  Without an operand the program ends with -1. -/
theorem equidistMain_none (J : Junk) (hi clock : BitVec 64) (evs : List Ev) :
    equidistMain mps J hi clock evs none = .ends (-1) [] := rfl

/-- **C103.**  On a line that sfmtdc printed, without `-r`: whatever the seed and the uninitialised half of the seed word, the
program ends with -1 and prints nothing or it ends with 0 and prints this line first, and nothing else without `-v`.  With
seed 1 and the half 0 it ends with 0. -/
theorem equidistMain_line (hm : MinPolySeqSpec mps) (J : Junk) (hi clock : BitVec 64) {evs : List Ev}
    (h1 : 256 ≤ mexp) (h3 : mexp < 2 ^ 30) (hf : ∀ e ∈ evs, Fine true e) (hr : Ev.reverse ∉ evs) {l : Line} (hl : GoodLine mexp l) :
    (equidistMain mps J hi clock evs (some l.text) = .ends (-1) [] ∧ ¬ (hi = 0 ∧ seedOf clock evs = 1)) ∨
    ∃ t, equidistMain mps J hi clock evs (some l.text) = .ends 0 (l.text ++ ['\n'] ++ t) ∧ (t = [] ↔ Ev.verbose ∉ evs) := by
  obtain ⟨f, f1, f2, f3⟩ := hl.equi
  have hone := hl.one
  obtain ⟨hme, hp, -⟩ := hl.toGoodFields
  subst hme
  have hcor := (equidistMain_correct hm J hi clock evs h1 h3 hp (decInt l.delta32 ++ ([','] ++ (decInt l.delta64 ++ ([','] ++
      decInt l.delta128))))).2 hf
  have ht : l.text = getString l.toFields ++ (decInt l.delta32 ++ ([','] ++ (decInt l.delta64 ++ ([','] ++
      decInt l.delta128)))) := by
    unfold Line.text
    rw [List.append_assoc, List.append_assoc, List.append_assoc, List.append_assoc]
  rw [← ht] at hcor
  by_cases hL : HasLarge l.mexp (seed (mk64 (seedOf clock evs) hi) l.gen)
  · obtain ⟨v, r, f', m32, m64, k128, d32, d64, d128, b1, b2, b3, b4⟩ := hcor.2 hL
    have hr' : r = false := by
      cases r with
      | false => rfl
      | true => exact absurd (b2.1 rfl) hr
    subst hr'
    have := large_unique h1 hp f1 f2 f3.dim b3.irr b3.deg b3.dim
    subst this
    obtain ⟨u1, u2, u3⟩ := b3.measured.unique f3
    subst u1 u2 u3
    rw [b4]
    unfold equidistText
    cases v with
    | false =>
      refine .inr ⟨[], ?_, iff_of_true rfl fun h => Bool.false_ne_true (b1.2 h)⟩
      simp only [Bool.false_eq_true, if_false, List.nil_append]
    | true =>
      simp only [Bool.false_eq_true, if_false, if_true, List.nil_append]
      refine .inr ⟨_, rfl, iff_of_false (fun h => ?_) (not_not.2 (b1.1 rfl))⟩
      simp only [List.append_eq_nil_iff] at h
      exact absurd h.1.1.1.1.1 (by decide)
  · refine .inl ⟨hcor.1 hL, ?_⟩
    rintro ⟨rfl, h⟩
    rw [h] at hL
    exact hL hone

/-- **C103.**  What is printed does not depend on the seed, the clock and the content of uninitialised memory, if something is
printed. -/
theorem equidistMain_seed (hm : MinPolySeqSpec mps) (J J' : Junk) (hi hi' clock clock' : BitVec 64) {evs evs' : List Ev}
    (hv : Ev.verbose ∈ evs ↔ Ev.verbose ∈ evs') (hr : Ev.reverse ∈ evs ↔ Ev.reverse ∈ evs') {l : Fields}
    (h1 : 256 ≤ l.mexp) (h3 : l.mexp < 2 ^ 30) (hp : ParOK l.param ∧ 1 ≤ l.param.pos1 ∧ l.param.pos1 < l.mexp / 128 + 1)
    (rest rest' : List Char) {a a' : List Char}
    (ha : equidistMain mps J hi clock evs (some (getString l ++ rest)) = .ends 0 a)
    (ha' : equidistMain mps J' hi' clock' evs' (some (getString l ++ rest')) = .ends 0 a') : a = a' := by
  have key : ∀ {J : Junk} {hi clock : BitVec 64} {evs : List Ev} {rest a : List Char},
      equidistMain mps J hi clock evs (some (getString l ++ rest)) = .ends 0 a →
      ∃ (verbose reverse : Bool) (f : (ZMod 2)[X]) (m32 m64 k128 : ℕ → ℤ) (d32 d64 d128 : ℤ),
          (verbose = true ↔ Ev.verbose ∈ evs) ∧ (reverse = true ↔ Ev.reverse ∈ evs) ∧
          Tables l.mexp l.param f reverse m32 m64 k128 d32 d64 d128 ∧
          a = equidistText verbose reverse ⟨l, d32, d64, d128⟩ m32 m64 k128 := by
    intro J hi clock evs rest a ha
    obtain ⟨c1, c2⟩ := equidistMain_correct hm J hi clock evs h1 h3 hp rest
    by_cases hf : ∀ e ∈ evs, Fine true e
    · by_cases hL : HasLarge l.mexp (seed (mk64 (seedOf clock evs) hi) l.gen)
      · obtain ⟨v, r, f', m32, m64, k128, d32, d64, d128, b1, b2, b3, b4⟩ := (c2 hf).2 hL
        rw [b4] at ha
        injection ha with _ ha
        exact ⟨v, r, f', m32, m64, k128, d32, d64, d128, b1, b2, b3, ha.symm⟩
      · rw [(c2 hf).1 hL] at ha
        cases ha
    · rw [c1 hf] at ha
      cases ha
  obtain ⟨v, r, f, m32, m64, k128, d32, d64, d128, b1, b2, b3, rfl⟩ := key ha
  obtain ⟨v', r', f', m32', m64', k128', d32', d64', d128', b1', b2', b3', rfl⟩ := key ha'
  have hvv : v = v' := Bool.eq_iff_iff.2 (b1.trans (hv.trans b1'.symm))
  have hrr : r = r' := Bool.eq_iff_iff.2 (b2.trans (hr.trans b2'.symm))
  subst hvv hrr
  have := large_unique h1 hp b3.irr b3.deg b3.dim b3'.irr b3'.deg b3'.dim
  subst this
  obtain ⟨u1, u2⟩ := b3.t32.unique b3'.t32
  obtain ⟨u3, u4⟩ := b3.t64.unique b3'.t64
  obtain ⟨u5, u6⟩ := b3.t128.unique b3'.t128
  unfold equidistText
  dsimp only
  rw [tableText_congr u1, tableText_congr u3, tableText_congr u5, u2, u4, u6]

-- A command line that the theorem is about: `-v -s 1 -r`.  The parameters are admissible, and the seed has a large component.
example : (∀ e ∈ [Ev.verbose, .seed "1".toList, .reverse], Fine true e) ∧
    seedOf 0 [Ev.verbose, .seed "1".toList, .reverse] = 1 ∧ HasLarge 607 (seed (mk64 1 0) { ctor 607 (fun _ => 0) with param := P607 }) := by
  refine ⟨?_, by decide +kernel, hasLarge607 _⟩
  simp only [List.forall_mem_cons]
  exact ⟨trivial, by show (strtoull _).2 = false; decide +kernel, rfl, by simp⟩

-- A command line that is rejected: the seed is out of range.
example : ¬ ∀ e ∈ [Ev.verbose, .seed "18446744073709551616".toList], Fine true e := by
  intro h
  have : (strtoull "18446744073709551616".toList).2 = false := h (.seed _) (List.mem_cons_of_mem _ (List.mem_singleton.2 rfl))
  revert this
  decide +kernel

-- The first lines of a table.
example : tableText 607 2 (fun v => if v = 1 then 607 else 300) = "k(1) = 607\td(1) = 0\nk(2) = 300\td(2) = 3\n".toList := by
  decide +kernel

end MTT.SFMT

namespace MTT.DSFMT

open Polynomial PIS Search W128 Parity Anni SIMD Text EquidistMain
open Options (strtoull)

variable {n mexp : ℕ} {mps : MPS}

/-- The table: what the numbers say of the 52-bit words that the parameters `p` produce in the component of `f`. -/
structure Table (n mexp : ℕ) (p : Par) (f : (ZMod 2)[X]) (m52 : ℕ → ℤ) (d52 : ℤ) : Prop where
  irr : Irreducible f
  deg : f.natDegree = mexp
  dim : Module.finrank (ZMod 2) (Large n p f) = mexp
  t52 : SimdTable 2 52 mexp (stream52 n p) (Large n p f) m52 d52

theorem Table.measured {p : Par} {f : (ZMod 2)[X]} {m52 : ℕ → ℤ} {d52 : ℤ} (h : Table n mexp p f m52 d52) :
    Measured n mexp p f d52 := ⟨h.dim, h.t52.sum⟩

/-- Specification of the text. -/
def equidistText (verbose : Bool) (l : Line) (m52 : ℕ → ℤ) : List Char :=
  l.text ++ ['\n'] ++ if verbose then
    "52bit dimension of equidistribution at v-bit accuracy k(v)\n".toList ++ tableText l.mexp 52 m52 else []

/-- **C103.**  `calc_equidist` of dSFMTdc on a command line with the first operand beginning with admissible parameters.  The
option `-r`, which the help text offers, is unknown. -/
theorem equidistMain_correct (hm : MinPolySeqSpec mps) (veq52 : ℕ → ℤ) (hi clock : BitVec 64) (evs : List Ev) {l : Fields}
    (h1 : 336 ≤ l.mexp) (h3 : l.mexp < 2 ^ 30) (hn : (l.mexp - 128) / 104 + 1 = n) (hp : ParOK n l.param) (rest : List Char) :
    ((¬ ∀ e ∈ evs, Fine false e) → equidistMain mps veq52 hi clock evs (some (getString l ++ rest)) = .ends (-1) []) ∧
    ((∀ e ∈ evs, Fine false e) →
      (¬ HasLarge n l.mexp (seed (mk64 (seedOf clock evs) hi) l.gen) →
        equidistMain mps veq52 hi clock evs (some (getString l ++ rest)) = .ends (-1) []) ∧
      (HasLarge n l.mexp (seed (mk64 (seedOf clock evs) hi) l.gen) →
        ∃ (verbose : Bool) (f : (ZMod 2)[X]) (m52 : ℕ → ℤ) (d52 : ℤ), (verbose = true ↔ Ev.verbose ∈ evs) ∧
          Table n l.mexp l.param f m52 d52 ∧
          equidistMain mps veq52 hi clock evs (some (getString l ++ rest)) =
            .ends 0 (equidistText verbose ⟨l, d52⟩ m52))) := by
  have hparse := parse_getString l (by omega) (by have := hp.2.2.1; omega) (by have := hp.2.2.2.2; omega) rest
  constructor
  · intro hbad
    unfold equidistMain
    dsimp only
    rw [hparse]
    dsimp only
    rw [if_pos (read_bad hbad rfl rfl)]
  intro hgood
  obtain ⟨b1, b2, b3, -⟩ := read_good hgood (o := init clock) rfl rfl
  have b3' : (read false (init clock) evs).verbose = true ↔ Ev.verbose ∈ evs := by
    rw [b3]; exact ⟨fun h => h.resolve_left Bool.false_ne_true, .inr⟩
  have b2' : (read false (init clock) evs).seed = seedOf clock evs := b2
  unfold equidistMain
  dsimp only
  rw [hparse]
  dsimp only
  rw [if_neg (by rw [b1]; decide), b2']
  generalize mk64 (seedOf clock evs) hi = w
  revert b3'
  generalize (read false (init clock) evs).verbose = verbose
  intro b3'
  obtain ⟨hs, -, hsM⟩ := seeded_inv (gen_inv h1 hn rfl hp) w
  have hbig : n * 104 + 128 < 2 * l.mexp := by omega
  have hR := redGen2 hs l.fix1 l.fix2 l.parity1 l.parity2
  obtain ⟨g2, b, p, a1, a2, a3, a4⟩ := anniD_correct hm hR (by decide) (by show 1 ≤ l.mexp; omega)
    (by show n * 104 + 128 < 2 * l.mexp; omega) (obs hs.pos_pos hs.pos hs.sl1_pos) (s := seed w l.gen)
    ⟨⟨hs, rfl⟩, rfl⟩ hsM
  rw [hn, a1]
  cases b with
  | false =>
    refine ⟨fun _ => rfl, ?_⟩
    rintro ⟨f, p', f1, f2, f3, f4⟩
    rw [f3.unique a2] at f4
    exact absurd f4 ((a3 rfl).2 f f1 f2)
  | true =>
    obtain ⟨f, f1, f2, f3, ⟨⟨⟨i1, i2⟩, i3⟩, i4, i5⟩⟩ := a4 rfl
    refine ⟨fun h => absurd ⟨f, p, f1, f2, a2, f3⟩ h, fun _ => ?_⟩
    have i2' : g2.param = l.param := i2
    have i3' : (g2.fix1, g2.fix2, g2.parity1, g2.parity2) = (l.fix1, l.fix2, l.parity1, l.parity2) := i3
    rw [Prod.mk.injEq, Prod.mk.injEq, Prod.mk.injEq] at i3'
    obtain ⟨j1, j2, j3, j4⟩ := i3'
    have i5' : IsVecMinpoly (T n ⟨g2.param, 0, 2⟩) (den n g2) f := by rw [i2']; exact i5
    have f2' : f.natDegree = l.mexp := f2
    obtain ⟨hvec, hcyc, hrank⟩ := cyc_large i1 hbig f1 f2' i4 i5'
    have hann : aeval (T1 n g2.param) f (core n g2) = 0 := (hvec.2 f).2 (dvd_refl f)
    obtain ⟨veq, sum, e1, e2⟩ := calcSIMD_table (G := simdOps n) Layout.d52
      (blocks52 i1.pos_pos i1.pos _) (rand := g2) (fun a ha b h1 h2 => mode52 i1.toInv ha h1 h2) (monic_of_ne f1.ne_zero)
      hann (by show _ ≤ n * 104 + 128; omega) isCalc1pos_128 (fuel := 128 * (129 * l.mexp) + 129) (by omega) f2'.le (by omega)
      veq52
    rw [hcyc] at e2
    have e3 : SimdTable 2 52 l.mexp (stream52 n g2.param) (Large n g2.param f) (fun v => veq (v - 1)) sum :=
      e2.congr fun k s b hb => by
        show SIMD.flip 52 false (stream52 n g2.param k s) b = _
        rw [flip_apply, if_pos hb]
        rfl
    rw [i2'] at e3 hrank
    refine ⟨verbose, f, _, sum, b3', ⟨f1, f2, hrank, e3⟩, ?_⟩
    dsimp only
    rw [e1]
    dsimp only
    have hfl : fieldsOf g2 = l := by
      unfold fieldsOf
      rw [i1.mexp, i2', j1, j2, j3, j4]
    rw [hfl, rows_eq]
    rfl

theorem equidistMain_none (veq52 : ℕ → ℤ) (hi clock : BitVec 64) (evs : List Ev) :
    equidistMain mps veq52 hi clock evs none = .ends (-1) [] := rfl

/-- **C103.**  On a line that dSFMTdc printed: whatever the seed and the uninitialised half of the seed word, the program ends
with -1 and prints nothing or it ends with 0 and prints this line first, and nothing else without `-v`.  With seed 1 and the
half 0 it ends with 0. -/
theorem equidistMain_line (hm : MinPolySeqSpec mps) (veq52 : ℕ → ℤ) (hi clock : BitVec 64) {evs : List Ev}
    (h1 : 336 ≤ mexp) (h3 : mexp < 2 ^ 30) (hn : (mexp - 128) / 104 + 1 = n) (hf : ∀ e ∈ evs, Fine false e) {l : Line}
    (hl : GoodLine n mexp l) :
    (equidistMain mps veq52 hi clock evs (some l.text) = .ends (-1) [] ∧ ¬ (hi = 0 ∧ seedOf clock evs = 1)) ∨
    ∃ t, equidistMain mps veq52 hi clock evs (some l.text) = .ends 0 (l.text ++ ['\n'] ++ t) ∧
      (t = [] ↔ Ev.verbose ∉ evs) := by
  obtain ⟨f, f1, f2, f3⟩ := hl.equi
  have hone := hl.one
  obtain ⟨hme, hp, -⟩ := hl.toGoodFields
  subst hme
  have hcor := (equidistMain_correct hm veq52 hi clock evs h1 h3 hn hp (decInt l.delta52)).2 hf
  have ht : l.text = getString l.toFields ++ decInt l.delta52 := rfl
  rw [← ht] at hcor
  by_cases hL : HasLarge n l.mexp (seed (mk64 (seedOf clock evs) hi) l.gen)
  · obtain ⟨v, f', m52, d52, b1, b3, b4⟩ := hcor.2 hL
    have := large_unique h1 hn hp f1 f2 (ne_bot_of_dim h1 f3.dim) b3.irr b3.deg (ne_bot_of_dim h1 b3.dim)
    subst this
    have u1 := b3.measured.unique f3
    subst u1
    rw [b4]
    unfold equidistText
    cases v with
    | false =>
      refine .inr ⟨[], ?_, iff_of_true rfl fun h => Bool.false_ne_true (b1.2 h)⟩
      simp only [Bool.false_eq_true, if_false]
    | true =>
      simp only [if_true]
      refine .inr ⟨_, rfl, iff_of_false (fun h => ?_) (not_not.2 (b1.1 rfl))⟩
      simp only [List.append_eq_nil_iff] at h
      exact absurd h.1 (by decide)
  · refine .inl ⟨hcor.1 hL, ?_⟩
    rintro ⟨rfl, h⟩
    rw [h] at hL
    exact hL hone

/-- **C103.**  What is printed does not depend on the seed, the clock and the content of uninitialised memory, if something is
printed. -/
theorem equidistMain_seed (hm : MinPolySeqSpec mps) (veq veq' : ℕ → ℤ) (hi hi' clock clock' : BitVec 64) {evs evs' : List Ev}
    (hv : Ev.verbose ∈ evs ↔ Ev.verbose ∈ evs') {l : Fields} (h1 : 336 ≤ l.mexp) (h3 : l.mexp < 2 ^ 30)
    (hn : (l.mexp - 128) / 104 + 1 = n) (hp : ParOK n l.param) (rest rest' : List Char) {a a' : List Char}
    (ha : equidistMain mps veq hi clock evs (some (getString l ++ rest)) = .ends 0 a)
    (ha' : equidistMain mps veq' hi' clock' evs' (some (getString l ++ rest')) = .ends 0 a') : a = a' := by
  have key : ∀ {veq : ℕ → ℤ} {hi clock : BitVec 64} {evs : List Ev} {rest a : List Char},
      equidistMain mps veq hi clock evs (some (getString l ++ rest)) = .ends 0 a →
      ∃ (verbose : Bool) (f : (ZMod 2)[X]) (m52 : ℕ → ℤ) (d52 : ℤ), (verbose = true ↔ Ev.verbose ∈ evs) ∧
          Table n l.mexp l.param f m52 d52 ∧ a = equidistText verbose ⟨l, d52⟩ m52 := by
    intro veq hi clock evs rest a ha
    obtain ⟨c1, c2⟩ := equidistMain_correct hm veq hi clock evs h1 h3 hn hp rest
    by_cases hf : ∀ e ∈ evs, Fine false e
    · by_cases hL : HasLarge n l.mexp (seed (mk64 (seedOf clock evs) hi) l.gen)
      · obtain ⟨v, f', m52, d52, b1, b3, b4⟩ := (c2 hf).2 hL
        rw [b4] at ha
        injection ha with _ ha
        exact ⟨v, f', m52, d52, b1, b3, ha.symm⟩
      · rw [(c2 hf).1 hL] at ha
        cases ha
    · rw [c1 hf] at ha
      cases ha
  obtain ⟨v, f, m52, d52, b1, b3, ea⟩ := key ha
  obtain ⟨v', f', m52', d52', b1', b3', ea'⟩ := key ha'
  have hvv : v = v' := Bool.eq_iff_iff.2 (b1.trans (hv.trans b1'.symm))
  subst hvv
  have k1 := ne_bot_of_dim h1 b3.dim
  have k2 := ne_bot_of_dim h1 b3'.dim
  have := large_unique h1 hn hp b3.irr b3.deg k1 b3'.irr b3'.deg k2
  subst this
  obtain ⟨u1, u2⟩ := b3.t52.unique b3'.t52
  rw [ea, ea']
  unfold equidistText
  dsimp only
  rw [tableText_congr u1, u2]

-- A command line that the theorem is about: `-s 1 -v`; and `-r`, which is rejected.  The seed has a large component.
example : (∀ e ∈ [Ev.seed "1".toList, .verbose], Fine false e) ∧ (¬ ∀ e ∈ [Ev.reverse], Fine false e) ∧
    HasLarge 12 1279 (seed (mk64 1 0) { ctor 1279 (fun _ => 0) with param := P1279 }) := by
  refine ⟨?_, fun h => Bool.false_ne_true (h .reverse (by simp)), hasLarge1279 _⟩
  simp only [List.forall_mem_cons]
  exact ⟨by show (strtoull _).2 = false; decide +kernel, trivial, by simp⟩

end MTT.DSFMT

namespace MTT.Period

open Polynomial

/-- What is left of the polynomial when there is no factor has at most the degree asked for. -/
theorem hasFactorOfDegree_rest {fuel degree : ℕ} {f r : (ZMod 2)[X]}
    (h : hasFactorOfDegree fuel f degree = some (false, r)) : deg r ≤ degree := by
  have inner : ∀ (t : (ZMod 2)[X]) (k : ℕ) (p q : (ZMod 2)[X]), innerLoop t degree k p = .small q → deg q < degree := by
    intro t k
    induction k with
    | zero => intro p q h; cases h
    | succ k ih =>
      intro p q h
      unfold innerLoop at h
      dsimp only at h
      split at h
      · cases h
      · split at h
        · cases h; assumption
        · exact ih _ _ h
  have outer : ∀ (k : ℕ) (p a b q : (ZMod 2)[X]), outerLoop degree k p a b = some (false, q) → deg q ≤ degree := by
    intro k
    induction k with
    | zero => intro p a b q h; cases h
    | succ k ih =>
      intro p a b q h
      unfold outerLoop at h
      split at h
      · split at h
        · cases h
        · rename_i hq
          cases h
          exact (inner _ _ _ _ hq).le
        · exact ih _ _ _ _ h
      · rename_i hgt
        split at h
        · cases h; exact not_lt.1 hgt
        · rename_i heq
          injection h with h
          injection h with _ h
          rw [← h]
          exact not_lt.1 hgt
  unfold hasFactorOfDegree at h
  dsimp only at h
  split at h
  · cases h
    rename_i hlt
    exact hlt.le
  · exact outer _ _ _ _ _ h

end MTT.Period

namespace MTT.RMT

open Polynomial PIS Search Text EquidistMain

variable {mps : MPS}

/-- **C103.**  `calc_equidist` of RMT on an argument with `mexp ≥ 65` and `pos` in range.  It ends with -1 and reports that
there is no factor exactly if the minimal polynomial of the lowest output bit after `seed(1234)` has no irreducible factor of
degree mexp; otherwise it ends with 0 and prints the parameters, the total defect and the table of C75. -/
theorem equidistMain_correct (hm : MinPolySeqSpec mps) {a : List Char} {l : Fields} (hl : parse a = some l)
    (h1 : 65 ≤ l.mexp) (hp : l.pos < l.mexp / 64 + 1) (junk : ℕ → BitVec 64) (veq0 : ℕ → ℕ) (pgm : List Char) :
    ((∀ p f, IsStartPoly l junk p → Irreducible f → f.natDegree = l.mexp → ¬ f ∣ p) ∧
      ∃ d : ℤ, d ≤ l.mexp ∧ equidistMain mps junk veq0 pgm (some a) =
        .ends (-1) ("error does not have factor of degree ".toList ++ (toString (l.mexp : ℤ)).toList ++ "\ndegree = ".toList ++
          (toString d).toList ++ ['\n'])) ∨
    (∃ (f : (ZMod 2)[X]) (veq : ℕ → ℕ) (d : ℤ), Table l f veq d ∧ (∃ p, IsStartPoly l junk p ∧ f ∣ p) ∧
      equidistMain mps junk veq0 pgm (some a) = .ends 0 (getString l.clean ++ [','] ++ (toString d).toList ++
        "\nveq\n".toList ++ tableText l.mexp 64 fun v => veq (v - 1))) := by
  rcases calcEquidist_correct hm hl h1 hp junk veq0 with ⟨e1, e2⟩ | ⟨f, r, e1, e2, e3⟩
  · refine .inl ⟨e2, ?_⟩
    unfold calcEquidist at e1
    unfold equidistMain
    dsimp only at e1 ⊢
    rw [hl] at e1 ⊢
    dsimp only at e1 ⊢
    split at e1
    · cases e1
    · rename_i rmt poly hmin
      rw [hmin]
      dsimp only
      split at e1
      · cases e1
      · rename_i q hq
        rw [hq]
        exact ⟨_, Period.hasFactorOfDegree_rest hq, by rw [nat_text, ← decInt_text]⟩
      · split at e1
        · cases e1
        · split at e1
          · cases e1
          · split at e1 <;> cases e1
  · refine .inr ⟨f, r.veq, r.sum, e2, e3, ?_⟩
    unfold calcEquidist at e1
    unfold equidistMain
    dsimp only at e1 ⊢
    rw [hl] at e1 ⊢
    dsimp only at e1 ⊢
    split at e1
    · cases e1
    · rename_i rmt poly hmin
      rw [hmin]
      dsimp only
      split at e1
      · cases e1
      · cases e1
      · rename_i q hq
        rw [hq]
        dsimp only
        split at e1
        · cases e1
        · rename_i rmt2 poly2 hc
          rw [hc]
          dsimp only
          split at e1
          · cases e1
          · rename_i rmt3 poly3 hc3
            rw [hc3]
            dsimp only
            split at e1
            · cases e1
            · rename_i r' hr'
              rw [hr']
              dsimp only
              injection e1 with e1
              rw [Prod.mk.injEq] at e1
              rw [e1.1, e1.2, rows_eq, decInt_text]

theorem equidistMain_none (junk : ℕ → BitVec 64) (veq0 : ℕ → ℕ) (pgm : List Char) :
    equidistMain mps junk veq0 pgm none = .ends 1 (pgm ++ "\n mexp,pos,mata,mskb,mskc,parity\n".toList) := rfl

end MTT.RMT
