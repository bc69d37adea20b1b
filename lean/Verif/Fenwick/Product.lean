import Verif.Fenwick.Refine
import Mathlib.Algebra.Group.Int.Defs

/-! Helper lemmas: product trees, bounds, aliasing. -/

set_option linter.unusedSectionVars false

namespace Verif.Fenwick
open Spec (Op Val put rangeSum addressed)

section sum
variable {T : Type} [AddCommGroup T] [DecidableEq T]

theorem rangeSum_zero (a : List T) : rangeSum a 0 0 = 0 := by
  simp [rangeSum, addressed, Spec.positions]

theorem rangeSum_single (a : List T) (p : Nat) (h1 : 1 ≤ p) (h2 : p ≤ a.length) :
    rangeSum a p p = a[p - 1]'(by omega) := by
  have e1 : max 1 (min (min p p) a.length) = p := by omega
  have e2 : min (max p p) a.length = p := by omega
  unfold rangeSum addressed
  rw [e1, e2]
  have := slice_single a p h1 h2
  unfold slice at this
  unfold Spec.positions
  rw [this]; simp

theorem queryLoop_ok (t : Transform T) (cells : List T) (i : Nat) (v : T) (h : i < cells.length) :
    (queryLoop t cells i v).isOk = true := by
  induction i using Nat.strongRecOn generalizing v with
  | _ i ih =>
    unfold queryLoop
    simp only
    split
    · next hc =>
      rw [rd_lt (by omega)]
      simp only [Res.bind_ok]
      exact ih _ hc.2 _ (by omega)
    · rfl

theorem prefixQuery_ok (t : Transform T) (cells : List T) (i : Nat) (h : i < cells.length) :
    ∃ v, prefixQuery t cells i = .ok v := by
  have := queryLoop_ok t cells i cells[i] h
  unfold prefixQuery
  rw [rd_lt h]; simp only [Res.bind_ok]
  cases hq : queryLoop t cells i cells[i] with
  | ok v => exact ⟨v, rfl⟩
  | exc e => rw [hq] at this; simp [Res.isOk] at this
  | ub => rw [hq] at this; simp [Res.isOk] at this

theorem rangeQuery_ok (cells : List T) (lo hi : Nat) (h : lo < cells.length) (h' : hi < cells.length) :
    ∃ v, rangeQuery (sumT T) cells lo hi = .ok v := by
  obtain ⟨v, hv⟩ := prefixQuery_ok (sumT T) cells hi h'
  obtain ⟨d, hd⟩ := prefixQuery_ok (sumT T) cells (lo - 1) (by omega)
  unfold rangeQuery
  rw [hv, hd]
  by_cases hlo : lo ≤ 1
  · simp only [if_pos hlo, Res.bind_ok]
    exact ⟨v, by simp [sumT]⟩
  · simp only [if_neg hlo, Res.bind_ok]
    split
    · exact ⟨_, rfl⟩
    · exact ⟨_, rfl⟩

theorem in_bounds (f : Tree T) (hb : f.built = true) (h1 : 1 ≤ f.size) (hW : f.size ≤ W) (p x y : Nat)
    (v : T) : (f.query (sumT T) x y).isOk = true ∧ (f.update (sumT T) p v).isOk = true ∧
      (f.setValue (sumT T) p v).isOk = true := by
  unfold Tree.size at *
  refine ⟨?_, ?_, ?_⟩
  · unfold Tree.query
    simp only [hb, Bool.not_true, Bool.false_eq_true, if_false]
    have e : (f.processed.length + (W - 1)) % W = f.processed.length - 1 := by
      have := length_last (n := f.processed.length - 1) (by omega)
      rwa [Nat.sub_add_cancel h1] at this
    rw [e]
    obtain ⟨r, hr⟩ := rangeQuery_ok f.processed (min (min x y) (f.processed.length - 1))
      (min (max x y) (f.processed.length - 1)) (by omega) (by omega)
    rw [hr]; rfl
  · unfold Tree.update
    simp only [hb, Bool.not_true, Bool.false_eq_true, if_false]
    split <;> rfl
  · unfold Tree.setValue
    simp only [hb, Bool.not_true, Bool.false_eq_true, if_false]
    split
    · next h =>
      simp only [Bool.and_eq_true, decide_eq_true_eq] at h
      obtain ⟨r, hr⟩ := rangeQuery_ok f.processed p p h.1 h.1
      rw [hr]
      simp only [Res.bind_ok]
      change Res.isOk (if _ then _ else _) = true
      split <;> rfl
    · rfl

theorem resize_zero_ub (input : List T) (hW : input.length + 1 ≤ W) (x y : Nat) :
    ((Tree.empty.build (sumT T) input input.length).resize 0).query (sumT T) x y = .ub := by
  have hr := build_reps sumT_lawful (Tree.empty (T := T)) input input.length (.inr ⟨rfl, rfl⟩) (by omega)
  have hl := hr.2.len
  have : (Tree.empty.build (sumT T) input input.length).resize 0 = ⟨[], true⟩ := by
    unfold Tree.resize
    rw [if_pos (by omega)]
    simp [hr.1]
  rw [this]
  have hp : ∀ i, prefixQuery (sumT T) ([] : List T) i = .ub := by
    intro i; simp [prefixQuery, rd]
  unfold Tree.query
  simp only [Bool.not_true, Bool.false_eq_true, if_false]
  unfold rangeQuery
  rw [hp]
  split <;> simp [hp]

end sum

section generic
variable {S : Type}

theorem rd_take {l : List S} {k i : Nat} (h : i < k) : rd (l.take k) i = rd l i := by
  unfold rd; rw [List.getElem?_take, if_pos h]

theorem queryLoop_take (t : Transform S) (cells : List S) (k i : Nat) (v : S) (h : i < k) :
    queryLoop t (cells.take k) i v = queryLoop t cells i v := by
  induction i using Nat.strongRecOn generalizing v with
  | _ i ih =>
    unfold queryLoop
    simp only
    split
    · next hc =>
      rw [rd_take (by omega)]
      congr 1
      funext c
      exact ih _ hc.2 _ (by omega)
    · rfl

theorem prefixQuery_take (t : Transform S) (cells : List S) (k i : Nat) (h : i < k) :
    prefixQuery t (cells.take k) i = prefixQuery t cells i := by
  unfold prefixQuery
  rw [rd_take h]
  congr 1
  funext v
  exact queryLoop_take t cells k i v h

theorem rangeQuery_take (t : Transform S) (cells : List S) (k lo hi : Nat) (h : lo < k) (h' : hi < k) :
    rangeQuery t (cells.take k) lo hi = rangeQuery t cells lo hi := by
  unfold rangeQuery
  rw [prefixQuery_take t cells k hi h', prefixQuery_take t cells k (lo - 1) (by omega)]

theorem resize_query (t : Transform S) (f : Tree S) (k : Nat) (h : k < f.size) (hW : f.size ≤ W) (x y : Nat)
    (hx : x < k) (hy : y < k) : (f.resize k).query t x y = f.query t x y := by
  unfold Tree.size at *
  unfold Tree.resize
  rw [if_pos h]
  unfold Tree.query
  simp only
  split
  · rfl
  · have e : (f.processed.length + (W - 1)) % W = f.processed.length - 1 := by
      have := length_last (n := f.processed.length - 1) (by omega)
      rwa [Nat.sub_add_cancel (by omega)] at this
    have e' : ((f.processed.take k).length + (W - 1)) % W = k - 1 := by
      have := length_last (n := k - 1) (by omega)
      rw [Nat.sub_add_cancel (by omega)] at this
      rw [List.length_take, Nat.min_eq_left (by omega)]; exact this
    rw [e, e', rangeQuery_take t f.processed k _ _ (by omega) (by omega)]
    have e1 : min (min x y) (k - 1) = min (min x y) (f.processed.length - 1) := by omega
    have e2 : min (max x y) (k - 1) = min (max x y) (f.processed.length - 1) := by omega
    rw [e1, e2]

theorem updateCellsAlias_eq (t : Transform S) (cells : List S) (p q : Nat) (v : S) (hW : cells.length ≤ W)
    (hq : cells[q]? = some v) (hp : 0 < p → ¬ (p ≤ q ∧ q - low q < p)) :
    updateCellsAlias t cells p q = .ok (updateCells t cells p v) := by
  fun_induction updateCells t cells p v with
  | case1 cells p h ih =>
    unfold updateCellsAlias
    rw [dif_pos h]
    have hr : rd cells q = .ok v := by unfold rd; rw [hq]
    rw [hr]
    simp only [Res.bind_ok]
    have hpl := low_pos p h.1
    have hql := low_le q
    have hne : p ≠ q := by
      intro e; subst e
      exact hp h.1 ⟨by omega, by omega⟩
    apply ih (by simpa using hW) (by rw [List.getElem?_set_ne hne]; exact hq)
    intro h0 hc
    rcases nextUpdate_cases p h.1 h.2.2 with ⟨e, he⟩ | ⟨e, he⟩
    · rw [e] at hc
      exact hp h.1 ⟨by omega, low_cover p q h.1 hc.1 hc.2⟩
    · omega
  | case2 cells p h =>
    unfold updateCellsAlias
    rw [dif_neg h]

theorem updateAlias_eq (t : Transform S) (f : Tree S) (p q : Nat) (hb : f.built = true)
    (hW : f.size ≤ W) (hq : q < f.size) (hpq : ¬ (p ≤ q ∧ q - low q < p)) :
    f.updateAlias t p q = f.update t p (f.processed[q]'hq) := by
  unfold Tree.size at *
  unfold Tree.updateAlias Tree.update Tree.at
  rw [rdAt_lt hq]
  simp only [Res.bind_ok, hb, Bool.not_true, Bool.false_eq_true, if_false]
  rw [updateCellsAlias_eq t f.processed p q f.processed[q] hW (by simp [hq]) (fun _ => hpq)]
  simp

end generic

/-! ### Product trees -/

theorem mulT_lawful : Lawful mulT where
  assoc a b c := Int.mul_assoc a b c
  comm a b := Int.mul_comm a b
  null_op a := Int.one_mul a

/-- What `update` does to the elements of a product tree: a factor 0 is ignored. -/
def mulUpdate (a : List Int) (p : Nat) (v : Int) : List Int :=
  if v ≠ 0 ∧ 1 ≤ p ∧ p ≤ a.length then a.modify (p - 1) (· * v) else a

/-- What `set_value` does to the elements of a product tree: element `p` is multiplied by the truncated quotient of `v` and
its value; a quotient 0 is ignored. -/
def mulSet (a : List Int) (p : Nat) (v : Int) : List Int :=
  if 1 ≤ p ∧ p ≤ a.length then a.modify (p - 1) (fun e => if v.tdiv e = 0 then e else e * v.tdiv e) else a

/-- Histories of a product tree: built from a vector, then rebuilt, downsized and changed in any way; the second argument is
the list of elements undergoing the changes (which are not always those one would expect, see `mulUpdate`, `mulSet`). -/
inductive MulHist : Tree Int → List Int → Prop
  | build (input : List Int) (n : Nat) (hW : min n input.length + 1 ≤ W) :
      MulHist (Tree.empty.build mulT input n) (input.take n)
  | rebuild {f a} (input : List Int) (n : Nat) (h : MulHist f a) (hW : min n input.length + 1 ≤ W) :
      MulHist (f.build mulT input n) (input.take n)
  | resize {f a} (k : Nat) (h : MulHist f a) (hk : 1 ≤ k) : MulHist (f.resize k) (a.take (k - 1))
  | update {f a f' b} (p : Nat) (v : Int) (h : MulHist f a) (hf : f.update mulT p v = .ok (f', b)) :
      MulHist f' (mulUpdate a p v)
  | setValue {f a f' b} (p : Nat) (v : Int) (h : MulHist f a) (hf : f.setValue mulT p v = .ok (f', b)) :
      MulHist f' (mulSet a p v)

theorem Reps.mul_update {f : Tree Int} {a : List Int} (h : Reps mulT f a) (p : Nat) (v : Int) (hv : v ≠ 0) :
    ∃ f', f.update mulT p v = .ok (f', decide (p ≤ a.length)) ∧
      Reps mulT f' (if 1 ≤ p ∧ p ≤ a.length then a.modify (p - 1) (· * v) else a) := by
  obtain ⟨hb, hi⟩ := h
  have hl := hi.len
  unfold Tree.update
  simp only [hb, Bool.not_true, Bool.false_eq_true, if_false]
  have e : decide (p < f.processed.length) = decide (p ≤ a.length) := by
    rw [hl]; congr 1; rw [eq_iff_iff]; omega
  have hv' : mulT.truthy v = true := by simp [mulT, hv]
  rw [e, hv', Bool.and_true]
  by_cases hc : p ≤ a.length
  · rw [if_pos (by simpa using hc)]
    refine ⟨_, rfl, rfl, ?_⟩
    by_cases hp : 1 ≤ p
    · rw [if_pos ⟨hp, hc⟩]
      exact hi.update mulT_lawful p v hp hc
    · rw [if_neg (by omega)]
      have : p = 0 := by omega
      subst this
      simpa [updateCells_zero] using hi
  · rw [if_neg (by simpa using hc), if_neg (by omega)]
    exact ⟨f, rfl, hb, hi⟩

theorem F_mul_ne_zero (l : List Int) (h : ∀ e ∈ l, e ≠ 0) : F mulT l ≠ 0 := by
  induction l with
  | nil => simp [F, mulT]
  | cons x l ih =>
    simp only [F_cons]
    exact Int.mul_ne_zero (h x (by simp)) (ih (fun e he => h e (by simp [he])))

theorem F_mul_zero (l : List Int) (h : 0 ∈ l) : F mulT l = 0 := by
  induction l with
  | nil => cases h
  | cons x l ih =>
    simp only [F_cons]
    rcases List.mem_cons.1 h with h | h
    · subst h; exact Int.zero_mul _
    · rw [ih h]; exact Int.mul_zero _

theorem mul_rangeQuery {cells a : List Int} (h : Inv mulT cells a) (lo hi : Nat)
    (h1 : lo ≤ hi) (h2 : hi ≤ a.length) (hz : F mulT (a.take (lo - 1)) ≠ 0) :
    rangeQuery mulT cells lo hi = .ok (F mulT (slice a (lo - 1) hi)) := by
  apply h.rangeQuery mulT_lawful lo hi h1 h2 (by simp [mulT])
  intro _
  left
  refine ⟨by simpa [mulT] using hz, fun v => ?_⟩
  change (if _ then _ else _) = _
  rw [if_neg hz]
  change Res.ok (Int.tdiv (_ * v) _) = _
  rw [Int.mul_tdiv_cancel_left _ hz]

/-- A zero before the range makes the answer 0. -/
theorem mul_rangeQuery_zero {cells a : List Int} (h : Inv mulT cells a) (lo hi : Nat)
    (h1 : lo ≤ hi) (h2 : hi ≤ a.length) (hz : 0 ∈ a.take (lo - 1)) : rangeQuery mulT cells lo hi = .ok 0 := by
  have hlo : ¬ lo ≤ 1 := by
    intro hl
    rw [show lo - 1 = 0 by omega] at hz
    simp at hz
  have hz' : 0 ∈ a.take hi := by
    have : a.take (lo - 1) = (a.take hi).take (lo - 1) := by rw [List.take_take, Nat.min_eq_left (by omega)]
    rw [this] at hz
    exact List.mem_of_mem_take hz
  unfold rangeQuery
  rw [if_neg hlo, h.prefixQuery mulT_lawful (lo - 1) (by omega), h.prefixQuery mulT_lawful hi h2, F_mul_zero _ hz,
    F_mul_zero _ hz']
  simp [mulT]

theorem mul_setValue {f : Tree Int} {a : List Int} (h : Reps mulT f a) (p : Nat) (v : Int) :
    (¬ (1 ≤ p ∧ p ≤ a.length) → f.setValue mulT p v = .ok (f, false)) ∧
    (1 ≤ p → p ≤ a.length → 0 ∈ a.take p → f.setValue mulT p v = .ub) ∧
    (1 ≤ p → p ≤ a.length → 0 ∉ a.take p → ∃ f', f.setValue mulT p v = .ok (f', true) ∧ Reps mulT f' (mulSet a p v)) := by
  obtain ⟨hb, hi⟩ := h
  have hl := hi.len
  have hin : 1 ≤ p → p ≤ a.length → (decide (p < f.processed.length) && decide (0 < p)) = true := by
    intro h1 h2; rw [hl]; simp; omega
  refine ⟨fun hn => ?_, fun h1 h2 hz => ?_, fun h1 h2 hz => ?_⟩
  · unfold Tree.setValue
    simp only [hb, Bool.not_true, Bool.false_eq_true, if_false]
    have e : (decide (p < f.processed.length) && decide (0 < p)) = false := by
      rw [hl, Bool.eq_false_iff]
      intro hc
      simp only [Bool.and_eq_true, decide_eq_true_eq] at hc
      omega
    simp [e]
  · have hq : rangeQuery mulT f.processed p p = .ok 0 := by
      by_cases hz' : 0 ∈ a.take (p - 1)
      · exact mul_rangeQuery_zero hi p p (Nat.le_refl _) h2 hz'
      · rw [mul_rangeQuery hi p p (Nat.le_refl _) h2 (F_mul_ne_zero _ fun e he h0 => hz' (h0 ▸ he)), slice_single a p h1 h2]
        have : a.take p = a.take (p - 1) ++ [a[p - 1]] := by
          rw [← List.take_succ_eq_append_getElem (by omega), show p - 1 + 1 = p by omega]
        rw [this] at hz
        rcases List.mem_append.1 hz with hz | hz
        · exact absurd hz hz'
        · rw [List.mem_singleton] at hz
          rw [← hz]
          rfl
    unfold Tree.setValue
    simp only [hb, Bool.not_true, Bool.false_eq_true, if_false, hin h1 h2, if_true, hq, Res.bind_ok]
    rfl
  · have hz' : ∀ e ∈ a.take (p - 1), e ≠ 0 := by
      rintro e he rfl
      apply hz
      have : a.take (p - 1) = (a.take p).take (p - 1) := by rw [List.take_take, Nat.min_eq_left (by omega)]
      rw [this] at he
      exact List.mem_of_mem_take he
    have hp0 : a[p - 1] ≠ 0 := by
      intro h0
      apply hz
      rw [List.mem_take_iff_getElem]
      exact ⟨p - 1, by omega, h0⟩
    have hq : rangeQuery mulT f.processed p p = .ok a[p - 1] := by
      rw [mul_rangeQuery hi p p (Nat.le_refl _) h2 (F_mul_ne_zero _ hz'), slice_single a p h1 h2]
      simp [F, mulT]
    have hr : mulT.rev v a[p - 1] = .ok (v.tdiv a[p - 1]) := by
      change (if _ then _ else _) = _
      rw [if_neg hp0]
    have hm : mulSet a p v = a.modify (p - 1) (fun e => if v.tdiv e = 0 then e else e * v.tdiv e) := by
      unfold mulSet; rw [if_pos ⟨h1, h2⟩]
    rw [hm]
    unfold Tree.setValue
    simp only [hb, Bool.not_true, Bool.false_eq_true, if_false, hin h1 h2, if_true, hq, hr, Res.bind_ok]
    by_cases hk : v.tdiv a[p - 1] = 0
    · refine ⟨f, by simp [mulT, hk], hb, ?_⟩
      have : a.modify (p - 1) (fun e => if v.tdiv e = 0 then e else e * v.tdiv e) = a := by
        apply List.ext_getElem?
        intro i
        rw [List.getElem?_modify]
        split
        · rename_i hi'
          subst hi'
          rw [List.getElem?_eq_getElem (by omega)]
          simp [hk]
        · simp
      rw [this]
      exact hi
    · refine ⟨{ f with processed := updateCells mulT f.processed p (v.tdiv a[p - 1]) }, by simp [mulT, hk, hb], hb, ?_⟩
      have hu := hi.update mulT_lawful p (v.tdiv a[p - 1]) h1 h2
      have : a.modify (p - 1) (fun e => if v.tdiv e = 0 then e else e * v.tdiv e) =
          a.modify (p - 1) (fun e => mulT.op e (v.tdiv a[p - 1])) := by
        apply List.ext_getElem?
        intro i
        rw [List.getElem?_modify, List.getElem?_modify]
        split
        · rename_i hi'
          subst hi'
          rw [List.getElem?_eq_getElem (by omega)]
          simp [hk, mulT]
        · rfl
      rw [this]
      exact hu

theorem Reps.mul_any_update {f : Tree Int} {a : List Int} (h : Reps mulT f a) (p : Nat) (v : Int) :
    ∃ f', f.update mulT p v = .ok (f', decide (p ≤ a.length)) ∧ Reps mulT f' (mulUpdate a p v) := by
  by_cases hv : v = 0
  · subst hv
    refine ⟨f, ?_, by simpa [mulUpdate] using h⟩
    have hl := h.2.len
    unfold Tree.update
    simp only [h.1, Bool.not_true, Bool.false_eq_true, if_false]
    have e : decide (p < f.processed.length) = decide (p ≤ a.length) := by
      rw [hl]; congr 1; rw [eq_iff_iff]; omega
    rw [e]
    simp [mulT]
  · obtain ⟨f', h1, h2⟩ := h.mul_update p v hv
    refine ⟨f', h1, ?_⟩
    unfold mulUpdate
    simpa [hv] using h2

theorem MulHist.reps {f : Tree Int} {a : List Int} (h : MulHist f a) : Reps mulT f a := by
  induction h with
  | build input n hW => exact build_reps mulT_lawful Tree.empty input n (.inr ⟨rfl, rfl⟩) hW
  | rebuild input n h hW ih => exact build_reps mulT_lawful _ input n (.inl ih.1) hW
  | resize k h hk ih => exact ih.resize k hk
  | update p v h hf ih =>
    obtain ⟨f'', h1, h2⟩ := ih.mul_any_update p v
    rw [h1] at hf
    injection hf with hf
    injection hf with hf _
    rw [← hf]; exact h2
  | @setValue f a f' b p v h hf ih =>
    obtain ⟨h1, h2, h3⟩ := mul_setValue ih p v
    by_cases hp : 1 ≤ p ∧ p ≤ a.length
    · by_cases hz : 0 ∈ a.take p
      · rw [h2 hp.1 hp.2 hz] at hf; cases hf
      · obtain ⟨f'', e1, e2⟩ := h3 hp.1 hp.2 hz
        rw [e1] at hf
        injection hf with hf
        injection hf with hf _
        rw [← hf]; exact e2
    · rw [h1 hp] at hf
      injection hf with hf
      injection hf with hf _
      rw [← hf]
      simpa [mulSet, hp] using ih

theorem MulHist.update_ok {f : Tree Int} {a : List Int} (h : MulHist f a) (p : Nat) (v : Int) :
    ∃ f', f.update mulT p v = .ok (f', decide (p ≤ a.length)) ∧ MulHist f' (mulUpdate a p v) := by
  obtain ⟨f', h1, _⟩ := h.reps.mul_any_update p v
  exact ⟨f', h1, .update p v h h1⟩

/-- The answer of `query` in all cases. -/
theorem MulHist.query_exact {f : Tree Int} {a : List Int} (h : MulHist f a) (x y : Nat) :
    f.query mulT x y = .ok (if 0 ∈ a.take (min (min x y) a.length - 1) then 0 else (addressed a x y).foldr (· * ·) 1) := by
  obtain ⟨hb, hi⟩ := h.reps
  have hl := hi.len
  have hW := hi.lenW
  unfold Tree.query
  simp only [hb, Bool.not_true, Bool.false_eq_true, if_false]
  rw [hl, length_last (by omega)]
  split
  · rename_i hz
    exact mul_rangeQuery_zero hi _ _ (by omega) (by omega) hz
  · rename_i hz
    rw [mul_rangeQuery hi _ _ (by omega) (by omega) (F_mul_ne_zero _ fun e he h0 => hz (h0 ▸ he))]
    unfold Spec.addressed Spec.positions slice
    have e : max 1 (min (min x y) a.length) - 1 = min (min x y) a.length - 1 := by omega
    rw [e]; rfl

theorem addressed_single (a : List Int) (p : Nat) (h1 : 1 ≤ p) (h2 : p ≤ a.length) : addressed a p p = [a[p - 1]] := by
  have e1 : max 1 (min (min p p) a.length) = p := by omega
  have e2 : min (max p p) a.length = p := by omega
  unfold addressed
  rw [e1, e2]
  exact slice_single a p h1 h2

theorem modify_take (a : List Int) (k : Nat) (g : Int → Int) : (a.modify k g).take k = a.take k := by
  apply List.ext_getElem?
  intro i
  rw [List.getElem?_take, List.getElem?_take]
  split
  · rw [List.getElem?_modify_ne _ _ (by omega)]
  · rfl

end Verif.Fenwick
