import Verif.Fenwick.Props
import Verif.Fenwick.Cost

/-! C105 exactly: what `update(p, tree[q])` does, and for which `p` and `q` it adds the value that `tree[q]` had. -/

namespace Verif.Fenwick

/-- Cell `i` is one of those that an update of position `p` modifies: it sums up a range that contains `p`. -/
def Spec.Covers (i p : Nat) : Prop := p ≤ i ∧ i - low i < p

instance (i p : Nat) : Decidable (Spec.Covers i p) := by unfold Spec.Covers; infer_instance

open Spec

/-- What the loop of `_update` does when its argument refers to cell `q`: up to `q` the value that the cell had, after it twice that. -/
theorem updateCellsAlias_get {S : Type} (t : Transform S) (cells : List S) (p q : Nat) (v : S) (h0 : 0 < p)
    (hW : cells.length ≤ W) (hq : cells[q]? = some v) (hc : Covers q p) :
    ∃ R, updateCellsAlias t cells p q = .ok R ∧ ∀ i, R[i]? =
      if Covers i p then (cells[i]?).map (fun x => t.op x (if i ≤ q then v else t.op v v)) else cells[i]? := by
  fun_induction updateCells t cells p v with
  | case1 cells p h ih =>
    unfold updateCellsAlias
    rw [dif_pos h]
    have hr : rd cells q = .ok v := by unfold rd; rw [hq]
    rw [hr]
    simp only [Res.bind_ok]
    have hlp := low_pos p h.1
    have hself : ∀ i, i = p → Covers i p := by
      intro i e; subst e; exact ⟨Nat.le_refl _, by have := low_le i; omega⟩
    by_cases hpq : p = q
    · subst hpq
      have hv : cells[p]'h.2.1 = v := by
        have := List.getElem?_eq_getElem h.2.1
        rw [hq] at this; exact (Option.some.inj this).symm
      rw [hv]
      have hset : (cells.set p (t.op v v))[p]? = some (t.op v v) := List.getElem?_set_self h.2.1
      have hW' : (cells.set p (t.op v v)).length ≤ W := by simpa using hW
      have hnc : 0 < nextUpdate p → ¬ (nextUpdate p ≤ p ∧ p - low p < nextUpdate p) := by
        rintro h1 ⟨h2, _⟩
        rcases nextUpdate_cases p h.1 h.2.2 with ⟨e, he⟩ | ⟨e, he⟩ <;> omega
      refine ⟨_, updateCellsAlias_eq t _ (nextUpdate p) p (t.op v v) hW' hset hnc, fun i => ?_⟩
      have hfull := updateCells_get t cells p (t.op v v) h.1 hW i
      rw [updateCells, dif_pos h, hv] at hfull
      by_cases hip : i = p
      · subst hip
        rw [if_pos (hself _ rfl), hq]
        simp only [Option.map_some, Nat.le_refl, if_true]
        rcases nextUpdate_cases i h.1 h.2.2 with ⟨e, he⟩ | ⟨e, he⟩
        · rw [updateCells_get t _ _ _ (by omega) hW', if_neg (by omega)]; exact hset
        · rw [e, updateCells_zero]; exact hset
      · have hne : (cells.set p (t.op v v))[i]? = cells[i]? := List.getElem?_set_ne (Ne.symm hip)
        have hne2 : (cells.set p (t.op v (t.op v v)))[i]? = cells[i]? := List.getElem?_set_ne (Ne.symm hip)
        have e2 : (updateCells t (cells.set p (t.op v v)) (nextUpdate p) (t.op v v))[i]? =
            (updateCells t (cells.set p (t.op v (t.op v v))) (nextUpdate p) (t.op v v))[i]? := by
          rcases nextUpdate_cases p h.1 h.2.2 with ⟨e, he⟩ | ⟨e, he⟩
          · rw [updateCells_get t _ _ _ (by omega) hW', updateCells_get t _ _ _ (by omega) (by simpa using hW), hne, hne2]
          · rw [e, updateCells_zero, updateCells_zero, hne, hne2]
        rw [e2, hfull]
        by_cases hcov : p ≤ i ∧ i - low i < p
        · have hcov' : Covers i p := hcov
          rw [if_pos hcov, if_pos hcov', if_neg (by omega)]
        · have hcov' : ¬ Covers i p := hcov
          rw [if_neg hcov, if_neg hcov']
    · have hset : (cells.set p (t.op (cells[p]'h.2.1) v))[q]? = some v := by
        rw [List.getElem?_set_ne hpq]; exact hq
      have hlt : p < q := by have := hc.1; omega
      have hnext : nextUpdate p = p + low p ∧ Covers q (nextUpdate p) := by
        have hqn : q < cells.length := (List.getElem?_eq_some_iff.1 hq).1
        have hg := low_gap p q h.1
        rcases nextUpdate_cases p h.1 h.2.2 with ⟨e, he⟩ | ⟨e, he⟩
        · rw [e]
          refine ⟨rfl, ?_, ?_⟩
          · by_cases h1 : q < p + low p
            · exact absurd hc.2 (by have := hg; unfold Covers at hc; omega)
            · omega
          · have := hc.2; omega
        · exfalso
          unfold Covers at hc
          omega
      obtain ⟨R, h1, h2⟩ := ih (by rw [hnext.1]; omega) (by simpa using hW) hset hnext.2
      refine ⟨R, h1, fun i => ?_⟩
      rw [h2 i]
      have hcv : i ≠ p → (Covers i (nextUpdate p) ↔ Covers i p) := by
        intro hip
        rw [hnext.1]
        unfold Covers
        have hg := low_gap p i h.1
        have hcc := low_cover p i h.1
        constructor
        · rintro ⟨a, b⟩; exact ⟨by omega, hcc a b⟩
        · rintro ⟨a, b⟩
          by_cases h1 : i < p + low p
          · exfalso; omega
          · exact ⟨by omega, by omega⟩
      by_cases hip : i = p
      · subst hip
        rw [if_neg (by unfold Covers; rw [hnext.1]; omega), if_pos (hself _ rfl), List.getElem?_set_self h.2.1,
          List.getElem?_eq_getElem h.2.1]
        simp only [Option.map_some]
        rw [if_pos (by omega)]
      · rw [List.getElem?_set_ne (Ne.symm hip)]
        by_cases hcov : Covers i p
        · rw [if_pos ((hcv hip).2 hcov), if_pos hcov]
        · rw [if_neg (fun h => hcov ((hcv hip).1 h)), if_neg hcov]
  | case2 cells p h =>
    exfalso
    have hqn : q < cells.length := (List.getElem?_eq_some_iff.1 hq).1
    have := hc.1
    omega

theorem updateAlias_in {S : Type} (t : Transform S) (f : Tree S) (p q : Nat) (hb : f.built = true) (hW : f.size ≤ W)
    (hq : q < f.size) (hp : 0 < p) (hc : Covers q p) (ht : t.truthy (f.processed[q]'hq) = true) :
    ∃ f', f.updateAlias t p q = .ok (f', true) ∧ f'.built = true ∧ ∀ i, f'.processed[i]? =
      if Covers i p then (f.processed[i]?).map
        (fun x => t.op x (if i ≤ q then f.processed[q]'hq else t.op (f.processed[q]'hq) (f.processed[q]'hq)))
      else f.processed[i]? := by
  unfold Tree.size at *
  obtain ⟨R, h1, h2⟩ := updateCellsAlias_get t f.processed p q (f.processed[q]'hq) hp hW (List.getElem?_eq_getElem hq) hc
  have hpl : p < f.processed.length := by have := hc.1; omega
  refine ⟨{ f with processed := R }, ?_, hb, h2⟩
  unfold Tree.updateAlias Tree.at
  rw [rdAt_lt hq]
  simp only [Res.bind_ok, hb, Bool.not_true, Bool.false_eq_true, if_false, hpl, decide_true, ht, Bool.and_true, if_true, h1]

/-- **C105, exactly:** `update(p, tree[q])` adds the value `v` that `tree[q]` had if and only if `v = 0`, or the update does not modify
cell `q`, or it modifies no cell after `q`; otherwise all cells modified after `q` get `v + v`. -/
theorem C105_exact {T : Type} [AddCommGroup T] [DecidableEq T] (f : Tree T) (p q : Nat) (hb : f.built = true) (hW : f.size ≤ W)
    (hq : q < f.size) (hp : 0 < p) :
    f.updateAlias (sumT T) p q = f.update (sumT T) p (f.processed[q]'hq) ↔
      f.processed[q]'hq = 0 ∨ ¬ Covers q p ∨ f.size ≤ q + low q := by
  by_cases hv : f.processed[q]'hq = 0
  · refine ⟨fun _ => .inl hv, fun _ => ?_⟩
    unfold Tree.updateAlias Tree.update Tree.at
    unfold Tree.size at *
    rw [rdAt_lt hq]
    simp [hb, hv, sumT]
  by_cases hc : Covers q p
  swap
  · exact ⟨fun _ => .inr (.inl hc), fun _ => updateAlias_eq _ f p q hb hW hq hc⟩
  have ht : (sumT T).truthy (f.processed[q]'hq) = true := by simpa [sumT] using hv
  obtain ⟨f', h1, h2, h3⟩ := updateAlias_in (sumT T) f p q hb hW hq hp hc ht
  have hpl : p < f.processed.length := by have := hc.1; unfold Tree.size at hq; omega
  have hu : f.update (sumT T) p (f.processed[q]'hq) =
      .ok ({ f with processed := updateCells (sumT T) f.processed p (f.processed[q]'hq) }, true) := by
    unfold Tree.update
    simp only [hb, Bool.not_true, Bool.false_eq_true, if_false, hpl, decide_true, ht, Bool.and_true, if_true]
  have hg := updateCells_get (sumT T) f.processed p (f.processed[q]'hq) hp hW
  rw [h1, hu]
  simp only [hv, hc, not_true_eq_false, false_or]
  have hq0 : 0 < q := by have := hc.1; omega
  have hlq := low_pos q hq0
  have hlow := low_le q
  constructor
  · intro e
    injection e with e; injection e with e _
    rcases Nat.lt_or_ge (q + low q) f.size with hn | hn
    swap
    · exact hn
    exfalso
    have hd := low_double q hq0
    have hcov : Covers (q + low q) p := by
      have := hc.1
      have := hc.2
      exact ⟨by omega, by omega⟩
    have e1 := h3 (q + low q)
    have e2 := hg (q + low q)
    rw [if_pos hcov] at e1
    have hcov' : p ≤ q + low q ∧ q + low q - low (q + low q) < p := hcov
    rw [if_pos hcov'] at e2
    have hn' : q + low q < f.processed.length := hn
    rw [e, List.getElem?_eq_getElem hn', if_neg (by omega)] at e1
    rw [List.getElem?_eq_getElem hn'] at e2
    simp only [Option.map_some] at e1 e2
    rw [e2] at e1
    have e3 := Option.some.inj e1
    simp only [sumT] at e3
    exact hv (by simpa using e3)
  · intro hn
    have : f' = { f with processed := updateCells (sumT T) f.processed p (f.processed[q]'hq) } := by
      have hproc : f'.processed = updateCells (sumT T) f.processed p (f.processed[q]'hq) := by
        apply List.ext_getElem?
        intro i
        rw [h3 i, hg i]
        by_cases hcov : Covers i p
        · have hcov' : p ≤ i ∧ i - low i < p := hcov
          rw [if_pos hcov, if_pos hcov']
          by_cases hi : i < f.processed.length
          · have hiq : i ≤ q := by
              rcases Nat.lt_or_ge q i with h | h
              · exfalso
                have := low_gap q i hq0 h (by unfold Tree.size at hn; omega)
                have := hc.1
                omega
              · exact h
            simp only [if_pos hiq]
          · rw [List.getElem?_eq_none (by omega)]; rfl
        · have hcov' : ¬ (p ≤ i ∧ i - low i < p) := hcov
          rw [if_neg hcov, if_neg hcov']
      cases f'
      simp only at hproc h2
      subst hproc; subst h2
      simp [hb]
    rw [this]

/-- On `[1,1,1,1]`: `update(1, tree[4])` and `update(3, tree[2])` add the value, `update(1, tree[2])` does not. -/
example : Covers 4 1 ∧ ¬ Covers 2 3 ∧ Covers 2 1 ∧ 5 ≤ 4 + low 4 ∧ ¬ 5 ≤ 2 + low 2 := by decide +kernel
example : (Tree.mk [0, 1, 2, 1, 4] true : Tree Int).updateAlias (sumT Int) 1 4 =
    (Tree.mk [0, 1, 2, 1, 4] true : Tree Int).update (sumT Int) 1 4 :=
  (C105_exact (Tree.mk [0, 1, 2, 1, 4] true : Tree Int) 1 4 rfl (by decide) (by decide) (by decide)).2 (.inr (.inr (by decide +kernel)))

end Verif.Fenwick
