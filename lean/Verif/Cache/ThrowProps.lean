import Verif.Cache.Throw
import Verif.Cache.HookProps

/-! C141: exceptions in the LRU cache. -/

namespace Verif.Cache
open Spec
set_option linter.unusedSectionVars false
variable {K : Type} [DecidableEq K]

namespace Spec

/-- Exceptions that leave a coherent cache: before anything was changed, or between two rounds of `clip`. -/
def Harmless (pl : Plan) : Prop :=
  ∀ p i, pl p i = true → p = .lookup ∨ p = .node ∨ p = .reserve ∨ p = .copy ∨ p = .forget

/-- No exception between the erasure of a list node and the update of the map. -/
def KeepsIterators (pl : Plan) : Prop := ∀ i, pl .relink i = false ∧ pl .index i = false ∧ pl .unmap i = false

/-- A history that sets no capacity 0. -/
def Positive (ops : List (Op K × Plan)) : Prop := ∀ n pl, (Op.setCapacity n, pl) ∈ ops → n ≠ 0

end Spec

/-- Defined, the result satisfies `P` and the state after an exception `Q`. -/
def T.All {β : Type} (P : β → Prop) (Q : Cache K → Prop) : T K β → Prop
  | .ok b => P b
  | .threw c => Q c
  | .ub => False

theorem T.All.bind {β γ : Type} {P : β → Prop} {R : γ → Prop} {Q : Cache K → Prop} {r : T K β} (h : r.All P Q) {f : β → T K γ}
    (hf : ∀ b, P b → (f b).All R Q) : (r >>= f).All R Q := by
  cases r with
  | ok b => exact hf b h
  | threw c => exact h
  | ub => exact h

theorem T.All.mono {β : Type} {P P' : β → Prop} {Q : Cache K → Prop} {r : T K β} (h : r.All P Q) (hp : ∀ b, P b → P' b) : r.All P' Q := by
  cases r with
  | ok b => exact hp b h
  | threw c => exact h
  | ub => exact h

/-- A point: its state must be good if it may throw. -/
theorem at_all {pl : Plan} {p : Point} {i : Nat} {c : Cache K} {Q : Cache K → Prop} (h : pl p i = true → Q c) :
    (at_ pl p i c).All (fun _ => True) Q := by
  unfold at_
  split
  · next e => exact h e
  · trivial

/-! ### Map entries lead to nodes -/

/-- Every entry of the map leads to a node of its key; there may be nodes without an entry. -/
structure OInv (c : Cache K) : Prop where
  ids : (c.list.map Prod.fst).Nodup
  map : ∀ k i, c.map k = some i → (i, k) ∈ c.list
  fresh : ∀ p ∈ c.list, p.1 < c.next

theorem Inv.orphans {c : Cache K} (h : Inv c) : OInv c := ⟨h.ids, fun k i => (h.map k i).1, h.fresh⟩

theorem OInv.find? {c : Cache K} (h : OInv c) {i : Nat} {k : K} (hm : (i, k) ∈ c.list) :
    c.list.find? (fun p => p.1 = i) = some (i, k) := by
  have hi := h.ids
  revert hi hm
  induction c.list with
  | nil => intro hm; cases hm
  | cons p l ih =>
    intro hm hi
    rw [List.map_cons, List.nodup_cons] at hi
    rw [List.find?_cons]
    by_cases hp : p.1 = i
    · simp only [hp, decide_true]
      rcases List.mem_cons.1 hm with rfl | hm
      · rfl
      · exact absurd (List.mem_map.2 ⟨_, hm, hp.symm ▸ rfl⟩) hi.1
    · simp only [hp, decide_false]
      rcases List.mem_cons.1 hm with rfl | hm
      · exact absurd rfl hp
      · exact ih hm hi.2

theorem OInv.deref {c : Cache K} (h : OInv c) {i : Nat} {k : K} (hm : (i, k) ∈ c.list) : derefT c i = .ok k := by
  unfold derefT Cache.deref
  rw [h.find? hm]

theorem OInv.fields {c : Cache K} (h : OInv c) (n m : Nat) (f : Bool) (l : List K) :
    OInv { c with maxElements := n, clipped := m, last := f, log := l } := ⟨h.ids, h.map, h.fresh⟩

/-- The node of `k` goes. -/
theorem OInv.erase {c : Cache K} (h : OInv c) {i : Nat} {k : K} (hm : (i, k) ∈ c.list) :
    ((c.list.eraseP (fun q => q.1 = i)).map Prod.fst).Nodup ∧
    (∀ k' i', k' ≠ k → c.map k' = some i' → (i', k') ∈ c.list.eraseP (fun q => q.1 = i)) ∧
    (∀ p ∈ c.list.eraseP (fun q => q.1 = i), p.1 < c.next) := by
  refine ⟨h.ids.sublist ((List.eraseP_sublist (l := c.list)).map _), fun k' i' hk he => ?_,
    fun p hp => h.fresh p ((List.eraseP_sublist (l := c.list)).subset hp)⟩
  have hm' := h.map k' i' he
  rw [List.mem_eraseP_of_neg]
  · exact hm'
  · intro e
    have e : i' = i := by simpa using e
    subst e
    have h1 := h.find? hm
    have h2 := h.find? hm'
    rw [h1] at h2
    injection h2 with h2
    exact hk (congrArg Prod.snd h2).symm

theorem OInv.clipT {pl : Plan} (n : Nat) : ∀ (i : Nat) {c : Cache K}, OInv c → (clipT pl n i c).All OInv OInv := by
  induction n with
  | zero => exact fun i c h => h
  | succ n ih =>
    intro i c h
    unfold Cache.clipT
    split
    · next hover =>
      split
      · next hg =>
        rw [List.getLast?_eq_none_iff] at hg
        simp [hg] at hover
      · next b hg =>
        obtain ⟨l, hl⟩ := List.getLast?_eq_some_iff.1 hg
        have h1 : OInv { c with map := fun k => if k = b.2 then none else c.map k, log := c.log ++ [b.2] } := by
          refine ⟨h.ids, fun k i he => ?_, h.fresh⟩
          have he : (if k = b.2 then none else c.map k) = some i := he
          split at he
          · cases he
          · exact h.map k i he
        refine (at_all fun _ => h).bind fun _ _ => (at_all fun _ => h1).bind fun _ _ => ih _ ?_
        refine ⟨?_, fun k i he => ?_, fun p hp => ?_⟩
        · exact h.ids.sublist ((List.dropLast_sublist c.list).map _)
        · have hm := h1.map k i he
          have he : (if k = b.2 then none else c.map k) = some i := he
          show (i, k) ∈ c.list.dropLast
          have hm : (i, k) ∈ c.list := hm
          rw [hl] at hm ⊢
          rw [List.dropLast_concat]
          rcases List.mem_append.1 hm with hm | hm
          · exact hm
          · have := List.mem_singleton.1 hm
            subst this
            rw [if_pos rfl] at he
            cases he
        · exact h.fresh p ((List.dropLast_sublist c.list).subset hp)
    · exact h

theorem OInv.clip {pl : Plan} {c : Cache K} (h : OInv c) : (clipAllT pl c).All OInv OInv :=
  OInv.clipT _ _ (h.fields c.maxElements 0 c.last c.log)

theorem OInv.add {pl : Plan} {i : Nat} {c : Cache K} (h : OInv c) (k : K) : (addT pl i c k).All OInv OInv := by
  unfold addT
  refine (at_all fun _ => h).bind fun _ _ => ?_
  split
  · exact h.fields _ _ _ _
  · next hc =>
    have hids : (((c.next, k) :: c.list).map Prod.fst).Nodup := by
      rw [List.map_cons, List.nodup_cons]
      refine ⟨fun hm => ?_, h.ids⟩
      obtain ⟨p, hp, e⟩ := List.mem_map.1 hm
      have := h.fresh p hp
      simp at e
      omega
    have hfresh : ∀ p ∈ (c.next, k) :: c.list, p.1 < c.next + 1 := by
      intro p hp
      rcases List.mem_cons.1 hp with rfl | hp
      · exact Nat.lt_succ_self _
      · exact Nat.lt_succ_of_lt (h.fresh p hp)
    have h1 : OInv { c with list := (c.next, k) :: c.list, next := c.next + 1 } :=
      ⟨hids, fun k' i' he => List.mem_cons_of_mem _ (h.map k' i' he), hfresh⟩
    have h2 : OInv { c with list := (c.next, k) :: c.list, next := c.next + 1, map := fun k' => if k' = k then some c.next else c.map k' } := by
      refine ⟨hids, fun k' i' he => ?_, hfresh⟩
      have he : (if k' = k then some c.next else c.map k') = some i' := he
      split at he
      · next e =>
        cases he
        rw [e]
        exact List.mem_cons_self
      · exact List.mem_cons_of_mem _ (h.map k' i' he)
    exact (at_all fun _ => h).bind fun _ _ => (at_all fun _ => h1).bind fun _ _ => h2.clip.bind fun c' h' => h'.fields _ _ _ _

theorem OInv.move {pl : Plan} (hpl : KeepsIterators pl) {c : Cache K} (h : OInv c) {i : Nat} {k : K} (hm : (i, k) ∈ c.list) :
    (moveT pl c i).All (fun c' => OInv c' ∧ ∃ j l, c'.list = (j, k) :: l) OInv := by
  unfold moveT
  rw [h.find? hm]
  simp only
  split
  · next hh =>
    refine ⟨h, ?_⟩
    cases hl : c.list with
    | nil => rw [hl] at hm; cases hm
    | cons p l =>
      have hf := h.find? hm
      rw [hl] at hh hf
      simp only [List.head?_cons, Option.map_some, Option.some.injEq] at hh
      rw [List.find?_cons_of_pos (by simpa using hh)] at hf
      injection hf with hf
      exact ⟨i, l, by rw [hf]⟩
  · refine (at_all fun _ => h).bind fun _ _ => (at_all fun e => ?_).bind fun _ _ => (at_all fun e => ?_).bind fun _ _ => ?_
    · rw [(hpl 0).1] at e
      cases e
    · rw [(hpl 0).2.1] at e
      cases e
    · obtain ⟨h1, h2, h3⟩ := h.erase hm
      refine ⟨⟨?_, fun k' i' he => ?_, fun p hp => ?_⟩, _, _, rfl⟩
      · show (((c.next, k) :: c.list.eraseP (fun q => q.1 = i)).map Prod.fst).Nodup
        rw [List.map_cons, List.nodup_cons]
        refine ⟨fun hm => ?_, h1⟩
        obtain ⟨p, hp, e⟩ := List.mem_map.1 hm
        have := h3 p hp
        simp at e
        omega
      · have he : (if k' = k then some c.next else c.map k') = some i' := he
        show (i', k') ∈ (c.next, k) :: c.list.eraseP (fun q => q.1 = i)
        split at he
        · next e =>
          cases he
          rw [e]
          exact List.mem_cons_self
        · next e => exact List.mem_cons_of_mem _ (h2 k' i' e he)
      · rcases List.mem_cons.1 hp with rfl | hp
        · exact Nat.lt_succ_self _
        · exact Nat.lt_succ_of_lt (h3 p hp)

theorem OInv.find {pl : Plan} (hpl : KeepsIterators pl) {i : Nat} {c : Cache K} (h : OInv c) (k : K) :
    (findT pl i c k).All (fun r => OInv r.1 ∧ ∀ j, r.2 = some j → (j, k) ∈ r.1.list) OInv := by
  unfold findT
  refine (at_all fun _ => h).bind fun _ _ => ?_
  cases hk : c.map k with
  | none => exact ⟨h, fun j e => by cases e⟩
  | some it =>
    refine (h.move hpl (h.map k it hk)).bind fun c' h' => ?_
    obtain ⟨h', j, l, hl⟩ := h'
    rw [hl]
    exact ⟨h', fun j' e => by cases e; rw [hl]; exact List.mem_cons_self⟩

theorem OInv.remove {pl : Plan} (hpl : KeepsIterators pl) {c : Cache K} (h : OInv c) (k : K) : (removeT pl c k).All OInv OInv := by
  unfold removeT
  refine (at_all fun _ => h).bind fun _ _ => ?_
  cases hk : c.map k with
  | none => exact h.fields _ _ _ _
  | some it =>
    have hm := h.map k it hk
    simp only [h.deref hm, T.bind_ok]
    refine (at_all fun e => ?_).bind fun _ _ => ?_
    · rw [(hpl 0).2.2] at e
      cases e
    · obtain ⟨h1, h2, h3⟩ := h.erase hm
      refine ⟨h1, fun k' i' he => ?_, h3⟩
      have he : (if k' = k then none else c.map k') = some i' := he
      split at he
      · cases he
      · next e => exact h2 k' i' e he

theorem OInv.step {pl : Plan} (hpl : KeepsIterators pl) {c : Cache K} (h : OInv c) {op : Op K} (hop : ∀ k, op ≠ .access k) :
    (stepT pl c op).All (fun r => OInv r.1) OInv := by
  cases op with
  | add k => exact (h.add k).bind fun _ h' => h'
  | find k =>
    refine (h.find hpl k).bind fun r hr => ?_
    obtain ⟨c', it⟩ := r
    cases it with
    | none => exact hr.1
    | some j =>
      simp only [hr.1.deref (hr.2 j rfl), T.bind_ok]
      exact hr.1
  | access k => exact absurd rfl (hop k)
  | remove k => exact (h.remove hpl k).bind fun _ h' => h'
  | clear => exact ⟨List.nodup_nil, (fun _ _ e => by cases e), (fun p hp => by cases hp)⟩
  | setCapacity n => exact (at_all fun _ => h).bind fun _ _ => (h.fields n c.clipped c.last c.log).clip.bind fun _ h' => h'
  | clip => exact h.clip.bind fun _ h' => h'

/-! ### The cache stays coherent -/

theorem harmless_not {pl : Plan} (h : Harmless pl) {p : Point} (hp : p = .entry ∨ p = .report ∨ p = .relink ∨ p = .index ∨ p = .unmap)
    {i : Nat} {P : Prop} (e : pl p i = true) : P := by
  rcases h p i e with rfl | rfl | rfl | rfl | rfl <;> simp at hp

theorem Inv.fields {c : Cache K} (h : Inv c) (n m : Nat) (f : Bool) (l : List K) :
    Inv { c with maxElements := n, clipped := m, last := f, log := l } := ⟨h.keys, h.ids, h.map, h.fresh⟩

/-- A coherent cache with capacity. -/
def Coherent (c : Cache K) : Prop := Inv c ∧ c.maxElements ≠ 0

theorem Coherent.clipT {pl : Plan} (hpl : Harmless pl) (n : Nat) : ∀ (i : Nat) {c : Cache K}, Coherent c →
    (clipT pl n i c).All (fun c' => Coherent c' ∧ ∀ p l, c.list = p :: l → ∃ l', c'.list = p :: l') Coherent := by
  induction n with
  | zero => exact fun i c h => ⟨h, fun p l e => ⟨l, e⟩⟩
  | succ n ih =>
    intro i c h
    unfold Cache.clipT
    split
    · next hover =>
      split
      · next hg =>
        rw [List.getLast?_eq_none_iff] at hg
        simp [hg] at hover
      · next b hg =>
        obtain ⟨l, hl⟩ := List.getLast?_eq_some_iff.1 hg
        refine (at_all fun _ => h).bind fun _ _ => (at_all fun e => harmless_not hpl (by simp) e).bind fun _ _ => ?_
        have hd : c.list.dropLast = l := by rw [hl, List.dropLast_concat]
        have hc : Coherent { c with
            map := fun k => if k = b.2 then none else c.map k, log := c.log ++ [b.2], list := c.list.dropLast, clipped := c.clipped + 1 } := by
          rw [hd]
          exact ⟨(h.1.cut hl (c.log ++ [b.2]) (c.clipped + 1)).inv, h.2⟩
        refine (ih (i + 1) hc).mono fun c' hc' => ⟨hc'.1, fun p q e => ?_⟩
        cases l with
        | nil =>
          have h0 := h.2
          rw [hl] at hover
          simp at hover
          omega
        | cons a l =>
          rw [hl, List.cons_append] at e
          injection e with e1 e2
          subst e1
          exact hc'.2 a l (by simp only; exact hd)
    · exact ⟨h, fun p l e => ⟨l, e⟩⟩

theorem Coherent.clip {pl : Plan} (hpl : Harmless pl) {c : Cache K} (h : Coherent c) :
    (clipAllT pl c).All (fun c' => Coherent c' ∧ ∀ p l, c.list = p :: l → ∃ l', c'.list = p :: l') Coherent :=
  Coherent.clipT hpl _ _ (c := { c with clipped := 0 }) ⟨h.1.fields c.maxElements 0 c.last c.log, h.2⟩

theorem Coherent.add {pl : Plan} (hpl : Harmless pl) {i : Nat} {c : Cache K} (h : Coherent c) (k : K) :
    (addT pl i c k).All (fun c' => Coherent c' ∧ k ∈ c'.values) Coherent := by
  unfold addT
  refine (at_all fun _ => h).bind fun _ _ => ?_
  rw [h.1.weak.contains]
  by_cases hk : k ∈ c.values
  · rw [if_pos (by simpa using hk)]
    exact ⟨⟨h.1.fields _ _ _ _, h.2⟩, hk⟩
  · rw [if_neg (by simpa using hk)]
    refine (at_all fun _ => h).bind fun _ _ => (at_all fun e => harmless_not hpl (by simp) e).bind fun _ _ => ?_
    refine (Coherent.clip hpl (c := pushed c k) ⟨h.1.push hk, h.2⟩).bind fun c' h' => ?_
    obtain ⟨l', hl'⟩ := h'.2 _ _ rfl
    exact ⟨⟨h'.1.1.fields _ _ _ _, h'.1.2⟩, by show k ∈ c'.list.map Prod.snd; rw [hl']; exact List.mem_cons_self⟩

theorem Coherent.find {pl : Plan} (hpl : Harmless pl) {i : Nat} {c : Cache K} (h : Coherent c) (k : K) :
    (findT pl i c k).All (fun r => Coherent r.1 ∧
      match r.2 with
      | some j => (j, k) ∈ r.1.list
      | none => k ∉ c.values) Coherent := by
  unfold findT
  refine (at_all fun _ => h).bind fun _ _ => ?_
  cases hk : c.map k with
  | none =>
    refine ⟨h, fun hm => ?_⟩
    obtain ⟨j, hj, _⟩ := h.1.map_some hm
    rw [hk] at hj
    cases hj
  | some it =>
    have hm := (h.1.map k it).1 hk
    obtain ⟨c', j, l, e, hi, hl, ha⟩ := h.1.moveToFront hm
    unfold moveT
    unfold Cache.moveToFront at e
    simp only [h.1.find? hm] at e ⊢
    split at e
    · next hc =>
      rw [if_pos hc]
      cases e
      simp only [T.bind_ok, hl, List.head?_cons]
      exact ⟨h, by simp [hl]⟩
    · next hc =>
      rw [if_neg hc]
      refine T.All.bind (P := fun c' => Coherent c' ∧ ∃ j l, c'.list = (j, k) :: l) ?_ ?_
      · refine (at_all fun _ => h).bind fun _ _ => (at_all fun e => harmless_not hpl (by simp) e).bind fun _ _ =>
          (at_all fun e => harmless_not hpl (by simp) e).bind fun _ _ => ?_
        cases e
        exact ⟨⟨hi, h.2⟩, _, _, rfl⟩
      · rintro c'' ⟨hc'', j, l, hl⟩
        rw [hl]
        exact ⟨hc'', by simp [hl]⟩

theorem Coherent.step {pl : Plan} (hpl : Harmless pl) {c : Cache K} (h : Coherent c) {op : Op K} (hop : op ≠ .setCapacity 0) :
    (stepT pl c op).All (fun r => Coherent r.1) Coherent := by
  cases op with
  | add k => exact (h.add hpl k).bind fun _ h' => h'.1
  | find k =>
    refine (h.find hpl k).bind fun r hr => ?_
    obtain ⟨c', it⟩ := r
    cases it with
    | none => exact hr.1
    | some j =>
      simp only [hr.1.1.orphans.deref hr.2, T.bind_ok]
      exact hr.1
  | access k =>
    simp only [stepT, accessT]
    refine (at_all fun _ => h).bind fun _ _ => ?_
    refine T.All.bind (P := fun c' => Coherent c' ∧ k ∈ c'.values) ?_ ?_
    · split
      · exact h.add hpl k
      · next hc =>
        refine ⟨⟨h.1.fields _ _ _ _, h.2⟩, ?_⟩
        rw [h.1.weak.contains] at hc
        show k ∈ c.values
        simpa using hc
    · rintro c1 ⟨h1, hk⟩
      refine (h1.find hpl k).bind fun r hr => ?_
      obtain ⟨c', it⟩ := r
      cases it with
      | none => exact absurd hk hr.2
      | some j =>
        simp only [hr.1.1.orphans.deref hr.2, T.bind_ok]
        exact hr.1
  | remove k =>
    obtain ⟨c', e, hi, ha⟩ := h.1.remove k
    simp only [stepT, removeT]
    refine T.All.bind (P := Coherent) ?_ fun _ h' => h'
    refine (at_all fun _ => h).bind fun _ _ => ?_
    cases hk : c.map k with
    | none => exact ⟨h.1.fields _ _ _ _, h.2⟩
    | some it =>
      have hm := (h.1.map k it).1 hk
      unfold Cache.remove at e
      simp only [Cache.readArg, Res.bind_ok, hk, h.1.deref hm] at e
      cases e
      simp only [h.1.orphans.deref hm, T.bind_ok]
      exact (at_all fun e => harmless_not hpl (by simp) e).bind fun _ _ => ⟨hi, h.2⟩
  | clear => exact ⟨Inv.clear, h.2⟩
  | setCapacity n =>
    simp only [stepT]
    refine (at_all fun _ => h).bind fun _ _ => ?_
    refine (Coherent.clip hpl (c := { c with maxElements := n }) ⟨h.1.setMax n, fun e => hop (by
      have e : n = 0 := e
      rw [e])⟩).bind fun _ h' => h'.1
  | clip => exact (h.clip hpl).bind fun _ h' => h'.1

/-- A property that every call keeps, whether it returns or throws. -/
theorem runT_all {Q : Cache K → Prop} (ops : List (Op K × Plan)) (hstep : ∀ op pl, (op, pl) ∈ ops → ∀ c, Q c →
    (stepT pl c op).All (fun r => Q r.1) Q) : ∀ {c : Cache K}, Q c → ∃ c' os, runT c ops = .ok (c', os) ∧ Q c' ∧ os.length = ops.length := by
  induction ops with
  | nil => exact fun {c} h => ⟨c, [], rfl, h, rfl⟩
  | cons x ops ih =>
    intro c h
    obtain ⟨op, pl⟩ := x
    have hs := hstep op pl List.mem_cons_self c h
    have ih := @ih fun op pl ho => hstep op pl (List.mem_cons_of_mem _ ho)
    unfold runT
    cases e : stepT pl c op with
    | ok r =>
      rw [e] at hs
      obtain ⟨c', os, e', h', hl⟩ := ih (c := r.1) hs
      simp only [e', Res.bind_ok]
      exact ⟨c', _, rfl, h', by simp [hl]⟩
    | threw c1 =>
      rw [e] at hs
      obtain ⟨c', os, e', h', hl⟩ := ih (c := c1) hs
      simp only [e', Res.bind_ok]
      exact ⟨c', _, rfl, h', by simp [hl]⟩
    | ub =>
      rw [e] at hs
      exact hs.elim

/-! ### C141 -/

/-- C141 in full: whatever throws, the cache stays coherent and later calls are defined (but for `operator[]` without capacity,
C25). -/
def C141_statement (K : Type) [DecidableEq K] : Prop :=
  ∀ (cap : Nat) (ops : List (Op K × Plan)), cap ≠ 0 → Positive ops →
    ∃ c os, runT (Cache.new cap) ops = .ok (c, os) ∧ c.values.Nodup ∧ ∀ k, c.contains k = true ↔ k ∈ c.values

/-- C141, the part that holds: exceptions of the hash function and the comparison in lookups and in `clip`, of the allocation of
the list node in `add`, of the copy of the key and of `reserve` leave a coherent cache.  Missing: exceptions elsewhere. -/
theorem C141_coherent_partial (cap : Nat) (hcap : cap ≠ 0) (ops : List (Op K × Plan)) (hops : Positive ops)
    (hpl : ∀ op pl, (op, pl) ∈ ops → Harmless pl) :
    ∃ c os, runT (Cache.new cap) ops = .ok (c, os) ∧ ∃ s, Observes c s := by
  obtain ⟨c, os, e, h, _⟩ := runT_all (Q := Coherent) ops (fun op pl ho c h => h.step (hpl op pl ho) fun e => hops 0 pl (e ▸ ho) rfl)
    (c := Cache.new cap) ⟨(new_inv cap).1, by
      have : (abs (Cache.new (K := K) cap)).cap = cap := by rw [(new_inv cap).2]; rfl
      exact fun e => hcap (this.symm.trans e)⟩
  exact ⟨c, os, e, _, observes h.1⟩

/-- C141, the part that holds of the other exceptions: if none happens in `move_to_front` after the old node is gone, or in
`remove`, then every history without `operator[]` is defined, although nodes may be in the list that the map does not know. -/
theorem C141_defined_partial (cap : Nat) (ops : List (Op K × Plan)) (hpl : ∀ op pl, (op, pl) ∈ ops → KeepsIterators pl)
    (hops : ∀ k pl, (Op.access k, pl) ∉ ops) :
    ∃ c os, runT (Cache.new cap) ops = .ok (c, os) ∧ ∀ k, c.contains k = true → k ∈ c.values := by
  obtain ⟨c, os, e, h, _⟩ := runT_all (Q := OInv) ops
    (fun op pl ho c h => h.step (hpl op pl ho) fun k e => hops k pl (e ▸ ho)) (c := Cache.new cap) (new_inv cap).1.orphans
  refine ⟨c, os, e, fun k hk => ?_⟩
  obtain ⟨i, hi⟩ := Option.isSome_iff_exists.1 hk
  exact List.mem_map.2 ⟨_, h.map k i hi, rfl⟩

/-- C141: whatever was thrown before, `clear()` repairs the cache: after it every history of calls behaves like the abstract
recency list (C21). -/
theorem C141_clear (cap : Nat) (ops : List (Op K × Plan)) {c : Cache K} {os : List (Option (Out K))}
    (_ : runT (Cache.new cap) ops = .ok (c, os)) (later : List (Op K)) :
    (∃ c' os s, run c.clear later = .ok (c', os) ∧ LRU.run ⟨c.maxElements, [], c.last, c.clipped, c.log⟩ later = .ok (s, os) ∧ Observes c' s) ∨
    (run c.clear later = .ub ∧ LRU.run ⟨c.maxElements, [], c.last, c.clipped, c.log⟩ later = .ub) := by
  rcases run_refines later c.clear Inv.clear (Nat.zero_le _) with ⟨c', os, e, i, _, a⟩ | ⟨e, a⟩
  · exact .inl ⟨c', os, abs c', e, a, observes i⟩
  · exact .inr ⟨e, a⟩

/-- The plan of a call in which one point throws the first time it is reached. -/
def fault (p : Point) : Plan := fun q i => decide (q = p ∧ i = 0)

/-- Nothing throws. -/
def calm : Plan := fun _ _ => false

/-- The results, the keys, and which of some keys the cache claims to have. -/
def dumpT (r : Res (Cache Nat × List (Option (Out Nat)))) (ks : List Nat) : Option (List (Option (Out Nat)) × List Nat × List Bool) :=
  match r with
  | .ok (c, os) => some (os, c.values, ks.map c.contains)
  | _ => none

theorem dump_ub {r : Res (Cache Nat × List (Option (Out Nat)))} (h : (match r with | .ub => true | _ => false) = true) : r = .ub := by
  cases r with
  | ub => rfl
  | ok => cases h
  | exc => cases h

/-- C141 fails: the allocation of the map entry in `add(1)` throws.  The cache then has 1 in its list but says that it does not
contain it. -/
theorem C141_counterexample : ¬ C141_statement Nat := by
  intro h
  obtain ⟨c, os, e, _, hk⟩ := h 2 [(.add 1, fault .entry)] (by simp) (by intro n pl hm; simp at hm)
  have hd : dumpT (runT (Cache.new 2) [(.add 1, fault .entry)]) [1] = some ([none], [1], [false]) := by decide +kernel
  rw [e] at hd
  simp only [dumpT, List.map_cons, List.map_nil, Option.some.injEq, Prod.mk.injEq] at hd
  have := (hk 1).2 (by rw [hd.2.1]; simp)
  rw [this] at hd
  simp at hd

/-- C141 fails: after that exception the same key can be added twice. -/
theorem C141_counterexample_twice :
    dumpT (runT (Cache.new 2) [(.add 1, fault .entry), (.add 1, calm)]) [1] = some ([none, some .none], [1, 1], [true]) := by
  decide +kernel

/-- C141 fails: the allocation of the list node in `find(1)` throws, after the old node is gone; the next `find(1)` or
`remove(1)` uses its iterator. -/
theorem C141_counterexample_find (op : Op Nat) (hop : op = .find 1 ∨ op = .remove 1) :
    runT (Cache.new 2) [(.add 1, calm), (.add 2, calm), (.find 1, fault .relink), (op, calm)] = .ub := by
  rcases hop with rfl | rfl <;> exact dump_ub (by decide +kernel)

/-- C141 fails: the hash function throws in `remove(1)`, after the node is gone. -/
theorem C141_counterexample_remove :
    runT (Cache.new 2) [(.add 1, calm), (.remove 1, fault .unmap), (.find 1, calm)] = .ub :=
  dump_ub (by decide +kernel)

/-- C141 fails: an override of `on_discard` throws.  The discarded key stays in the list; when it is added again, discarding the
old node makes the cache forget the new one. -/
theorem C141_counterexample_discard :
    dumpT (runT (Cache.new 2) [(.add 1, calm), (.add 2, calm), (.add 3, fault .report), (.add 1, calm)]) [1, 2, 3] =
      some ([some .none, some .none, none, some .none], [1, 3], [false, false, true]) := by
  decide +kernel

/-- C141 fails: with such a key in the list `operator[]` may forget the key it has just added, and is undefined. -/
theorem C141_counterexample_access :
    runT (Cache.new 1) [(.add 1, fault .entry), (.access 1, calm)] = .ub :=
  dump_ub (by decide +kernel)

example : dumpT (runT (Cache.new 2) [(.add 1, calm), (.add 2, fault .node), (.add 2, calm), (.find 1, fault .copy), (.add 3, fault .forget)]) [1, 2, 3] =
    some ([some .none, none, some .none, none, none], [3, 2, 1], [true, true, true]) := by decide +kernel

end Verif.Cache
