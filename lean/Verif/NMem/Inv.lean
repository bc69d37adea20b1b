import Verif.NMem.Lemmas
import Mathlib.Tactic.ByContra

/-! The invariant of programs over n-ary trees, and how a change of one node keeps it. -/

namespace Verif.NMem
open Nary (Slots Node)
open Spec
variable {α β : Type}

/-! ### Replacing at a path -/

theorem sub_put (path : List Nat) : ∀ {t u : Tree β} {n : Node β}, sub t path = some n → sub (put t path u) path = u := by
  induction path with
  | nil => intro t u n _; rw [put_nil, sub_nil]
  | cons p path ih =>
    intro t u n h
    rcases t with _ | ⟨b, k⟩
    · cases h
    · have h : sub (slot k p) path = some n := h
      show sub (slot (ofList (k.toList.modify p fun t => put t path u)) p) path = u
      rw [slot_ofList, List.getElem?_modify_eq]
      cases hk : k.toList[p]? with
      | none => simp [slot, hk, sub_none] at h
      | some t =>
        have : slot k p = t := by simp [slot, hk]
        rw [this] at h
        exact ih h

theorem put_put (path : List Nat) : ∀ t u u' : Tree β, put (put t path u) path u' = put t path u' := by
  induction path with
  | nil => intro t u u'; rw [put_nil, put_nil]
  | cons p path ih =>
    intro t u u'
    rcases t with _ | ⟨b, k⟩
    · rfl
    · show some (b, ofList ((ofList (k.toList.modify p fun t => put t path u)).toList.modify p fun t => put t path u')) =
        some (b, ofList (k.toList.modify p fun t => put t path u'))
      rw [toList_ofList, List.modify_modify_eq]
      rw [show ((fun t => put t path u') ∘ fun t => put t path u) = fun t => put t path u' from funext fun t => ih t u u']

theorem setVar_self (S : Var → Tree β) (v : Var) (t : Tree β) : Spec.setVar S v t v = t := by simp [Spec.setVar]

theorem setVar_other (S : Var → Tree β) {v w : Var} (t : Tree β) (h : w ≠ v) : Spec.setVar S v t w = S w := by simp [Spec.setVar, h]

theorem setVar_setVar (S : Var → Tree β) (v : Var) (t u : Tree β) : Spec.setVar (Spec.setVar S v t) v u = Spec.setVar S v u := by
  funext w
  by_cases h : w = v <;> simp [Spec.setVar, h]

theorem valsT_setVar (T : Var → AT α) (v : Var) (t : AT α) :
    (fun w => valsT (Spec.setVar T v t w)) = Spec.setVar (fun w => valsT (T w)) v (valsT t) := by
  funext w
  by_cases h : w = v <;> simp [Spec.setVar, h]

/-! ### The invariant -/

/-- The variables of the program hold the trees `T`, without common nodes; `L` is a row of slots that is on its way. -/
structure Inv (s : St α) (T : Var → AT α) (L : AS α) : Prop where
  rep : ∀ v, RepT s.mem (T v)
  root : ∀ v, s.vars v = ptrT (T v)
  nodup : ∀ v, (idsT (T v)).Nodup
  disj : ∀ v w i, i ∈ idsT (T v) → i ∈ idsT (T w) → v = w
  fresh : ∀ i, s.next ≤ i → s.mem i = none
  repL : Rep s.mem L
  nodupL : (ids L).Nodup
  disjL : ∀ v i, i ∈ idsT (T v) → i ∉ ids L

/-- Every node is reachable. -/
def NoLeak (s : St α) (T : Var → AT α) (L : AS α) : Prop :=
  ∀ i c, s.mem i = some c → (∃ v, i ∈ idsT (T v)) ∨ i ∈ ids L

/-- `_parent` is the owner, below a node with address `q`. -/
def ParS (q : Ptr) : AS α → Prop
  | .nil => True
  | .null r => ParS q r
  | .node b k r => b.par = q ∧ ParS (some b.id) k ∧ ParS q r

def ParT (q : Ptr) : AT α → Prop
  | none => True
  | some (b, k) => b.par = q ∧ ParS (some b.id) k

def Par (T : Var → AT α) (L : AS α) : Prop := (∀ v, ParT none (T v)) ∧ ParS none L

theorem parS_toList (q : Ptr) (k : AS α) : ParS q k ↔ ∀ t ∈ k.toList, ParT q t := by
  induction k with
  | nil => simp [ParS, Slots.toList]
  | null r ih => simp [ParS, Slots.toList, ih, ParT]
  | node b k r _ ih => simp [ParS, Slots.toList, ih, ParT, and_assoc]

theorem parS_ofList (q : Ptr) (l : List (AT α)) : ParS q (ofList l) ↔ ∀ t ∈ l, ParT q t := by rw [parS_toList, toList_ofList]

theorem par_slot {q : Ptr} {k : AS α} (h : ParS q k) (p : Nat) : ParT q (slot k p) := by
  rw [parS_toList] at h
  simp only [slot]
  cases hk : k.toList[p]? with
  | none => trivial
  | some t => exact h t (List.mem_of_getElem? hk)

theorem par_sub (path : List Nat) : ∀ {q : Ptr} {t : AT α} {b : Info α} {k : AS α}, ParT q t → sub t path = some (b, k) → ParS (some b.id) k := by
  induction path with
  | nil => intro q t b k h hs; rw [sub_nil] at hs; rw [hs] at h; exact h.2
  | cons p path ih =>
    intro q t b k h hs
    rcases t with _ | ⟨b', k'⟩
    · cases hs
    · exact ih (par_slot h.2 p) hs

theorem par_put (path : List Nat) : ∀ {q : Ptr} {t : AT α} {b b' : Info α} {k k' : AS α}, ParT q t → sub t path = some (b, k) →
    b'.par = b.par → ParS (some b'.id) k' → b'.id = b.id → ParT q (put t path (some (b', k'))) := by
  induction path with
  | nil =>
    intro q t b b' k k' h hs h1 h2 h3
    rw [sub_nil] at hs
    rw [hs] at h
    rw [put_nil]
    exact ⟨h1.trans h.1, h2⟩
  | cons p path ih =>
    intro q t b b' k k' h hs h1 h2 h3
    rcases t with _ | ⟨c, kc⟩
    · cases hs
    · have hs : sub (slot kc p) path = some (b, k) := hs
      refine ⟨h.1, (parS_ofList _ _).2 fun t ht => ?_⟩
      obtain ⟨n, hn⟩ := List.mem_iff_getElem?.1 ht
      rw [List.getElem?_modify] at hn
      have hp := (parS_toList _ _).1 h.2
      cases hk : kc.toList[n]? with
      | none => rw [hk] at hn; cases hn
      | some x =>
        rw [hk] at hn
        have hx := hp x (List.mem_of_getElem? hk)
        by_cases hpn : p = n
        · subst hpn
          simp only [if_true, Option.map_eq_map, Option.map_some, Option.some.injEq] at hn
          subst hn
          have : slot kc p = x := by simp [slot, hk]
          rw [this] at hs
          exact ih hx hs h1 h2 h3
        · simp only [if_neg hpn, id, Option.map_eq_map, Option.map_some, Option.some.injEq] at hn
          exact hn ▸ hx

theorem Inv.lt {s : St α} {T : Var → AT α} {L : AS α} (h : Inv s T L) {i : Nat} {c : Cell α} (hi : s.mem i = some c) : i < s.next := by
  by_contra hc
  rw [h.fresh i (by omega)] at hi
  cases hi

theorem repS_live {m : Nat → Option (Cell α)} {k : AS α} (h : Rep m k) {i : Nat} (hi : i ∈ ids k) : ∃ c, m i = some c := by
  induction k with
  | nil => cases hi
  | null r ih => exact ih h hi
  | node b k r ihk ihr =>
    simp only [ids, List.mem_cons, List.mem_append] at hi
    rcases hi with rfl | hi | hi
    · exact ⟨_, h.1⟩
    · exact ihk h.2.1 hi
    · exact ihr h.2.2 hi

theorem rep_live {m : Nat → Option (Cell α)} {t : AT α} (h : RepT m t) {i : Nat} (hi : i ∈ idsT t) : ∃ c, m i = some c := by
  rcases t with _ | ⟨b, k⟩
  · cases hi
  · simp only [idsT, List.mem_cons] at hi
    rcases hi with rfl | hi
    · exact ⟨_, h.1⟩
    · exact repS_live h.2 hi

theorem Inv.lt_ids {s : St α} {T : Var → AT α} {L : AS α} (h : Inv s T L) {v : Var} {i : Nat} (hi : i ∈ idsT (T v)) : i < s.next := by
  obtain ⟨c, hc⟩ := rep_live (h.rep v) hi
  exact h.lt hc

theorem Inv.lt_idsL {s : St α} {T : Var → AT α} {L : AS α} (h : Inv s T L) {i : Nat} (hi : i ∈ ids L) : i < s.next := by
  obtain ⟨c, hc⟩ := repS_live h.repL hi
  exact h.lt hc

theorem Inv.at {s : St α} {T : Var → AT α} {L : AS α} (h : Inv s T L) {v : Var} {path : List Nat} {b : Info α} {k : AS α}
    (hs : sub (T v) path = some (b, k)) : s.mem b.id = some ⟨b.par, b.val, ptrs k⟩ ∧ Rep s.mem k := by
  have := rep_sub path (h.rep v)
  rwa [hs] at this

/-- A change of the node `b` with the slots `k` and of the loose slots `L`. -/
structure Upd (s s' : St α) (b : Info α) (k L : AS α) (b' : Info α) (k' L' : AS α) : Prop where
  id : b'.id = b.id
  here : s'.mem b.id = some ⟨b'.par, b'.val, ptrs k'⟩
  rep : Rep s'.mem k'
  repL : Rep s'.mem L'
  keep : ∀ i, i ≠ b.id → i ∉ ids k → i ∉ ids L → i < s.next → s'.mem i = s.mem i
  vars : s'.vars = s.vars
  fresh : ∀ i, s'.next ≤ i → s'.mem i = none
  nodup : (ids k' ++ ids L').Nodup
  origin : ∀ i ∈ ids k' ++ ids L', i ∈ ids k ∨ i ∈ ids L ∨ s.next ≤ i

theorem Inv.upd {s s' : St α} {T : Var → AT α} {L L' : AS α} (h : Inv s T L) {v : Var} {path : List Nat} {b b' : Info α} {k k' : AS α}
    (hs : sub (T v) path = some (b, k)) (u : Upd s s' b k L b' k' L') :
    Inv s' (Spec.setVar T v (put (T v) path (some (b', k')))) L' := by
  obtain ⟨rest, p1, p2⟩ := put_perm path hs
  have hv := p1.nodup_iff.1 (h.nodup v)
  obtain ⟨v1, v2, v3⟩ := List.nodup_append.1 hv
  obtain ⟨-, v5⟩ := List.nodup_cons.1 v1
  have hput := p2 (some (b', k'))
  have hrest : ∀ i ∈ rest, i ∈ idsT (T v) := fun i hi => p1.mem_iff.2 (List.mem_append_right _ hi)
  have hbk : ∀ i ∈ idsT (some (b, k)), i ∈ idsT (T v) := fun i hi => p1.mem_iff.2 (List.mem_append_left _ hi)
  have hb : b.id ∈ idsT (T v) := hbk _ (by simp [idsT])
  have hk : ∀ i ∈ ids k, i ∈ idsT (T v) := fun i hi => hbk _ (by simp [idsT, hi])
  obtain ⟨n1, n2, n3⟩ := List.nodup_append.1 u.nodup
  -- what is new or was in `k` or `L` is not elsewhere
  have hor : ∀ i ∈ ids k' ++ ids L', i ∉ rest ∧ i ≠ b.id ∧ ∀ w, w ≠ v → i ∉ idsT (T w) := fun i hi => by
    rcases u.origin i hi with ho | ho | ho
    · exact ⟨fun hc => v3 i (by simp [idsT, ho]) i hc rfl, fun e => by
        have := List.nodup_cons.1 v1
        exact this.1 (e ▸ ho), fun w hw hc => hw (h.disj w v i hc (hk i ho))⟩
    · exact ⟨fun hc => h.disjL v i (hrest i hc) ho, fun e => h.disjL v i (e ▸ hb) ho, fun w _ hc => h.disjL w i hc ho⟩
    · exact ⟨fun hc => by have := h.lt_ids (hrest i hc); omega, fun e => by have := h.lt_ids (e ▸ hb : i ∈ _); omega,
        fun w _ hc => by have := h.lt_ids hc; omega⟩
  have hput' : ∀ i, i ∈ idsT (put (T v) path (some (b', k'))) ↔ i = b.id ∨ i ∈ ids k' ∨ i ∈ rest := fun i => by
    rw [hput.mem_iff]; simp [idsT, u.id]
  refine ⟨fun w => ?_, fun w => ?_, fun w => ?_, fun w x i hw hx => ?_, u.fresh, u.repL, n2, fun w i hw hL => ?_⟩
  · by_cases e : w = v
    · subst e
      rw [setVar_self]
      refine rep_put path (h.rep w) (h.nodup w) hs (fun i hi hni => ?_) ⟨by rw [u.id]; exact u.here, u.rep⟩ (by simp [ptrT, u.id])
      simp only [idsT, List.mem_cons, not_or] at hni
      exact u.keep i hni.1 hni.2 (h.disjL w i hi) (h.lt_ids hi)
    · rw [setVar_other _ _ e]
      refine rep_congr (h.rep w) fun i hi => u.keep i (fun hc => e (h.disj w v i hi (hc ▸ hb))) (fun hc => e (h.disj w v i hi (hk i hc)))
        (h.disjL w i hi) (h.lt_ids hi)
  · rw [u.vars, h.root w]
    by_cases e : w = v
    · subst e
      rw [setVar_self, ptrT_put path hs (by simp [ptrT, u.id])]
    · rw [setVar_other _ _ e]
  · by_cases e : w = v
    · subst e
      rw [setVar_self, hput.nodup_iff]
      refine List.nodup_append.2 ⟨List.nodup_cons.2 ⟨fun hc => ?_, n1⟩, v2, fun i hi j hj => ?_⟩
      · rw [u.id] at hc
        exact (hor _ (List.mem_append_left _ hc)).2.1 rfl
      · rintro rfl
        simp only [idsT, List.mem_cons] at hi
        rcases hi with rfl | hi
        · rw [u.id] at hj
          exact v3 b.id (by simp [idsT]) b.id hj rfl
        · exact (hor _ (List.mem_append_left _ hi)).1 hj
    · rw [setVar_other _ _ e]; exact h.nodup w
  · by_cases ew : w = v
    · by_cases ex : x = v
      · rw [ew, ex]
      · exfalso
        subst ew
        rw [setVar_self, hput'] at hw
        rw [setVar_other _ _ ex] at hx
        rcases hw with rfl | hw | hw
        · exact ex (h.disj x w _ hx hb)
        · exact (hor _ (List.mem_append_left _ hw)).2.2 x ex hx
        · exact ex (h.disj x w _ hx (hrest _ hw))
    · by_cases ex : x = v
      · exfalso
        subst ex
        rw [setVar_self, hput'] at hx
        rw [setVar_other _ _ ew] at hw
        rcases hx with rfl | hx | hx
        · exact ew (h.disj w x _ hw hb)
        · exact (hor _ (List.mem_append_left _ hx)).2.2 w ew hw
        · exact ew (h.disj w x _ hw (hrest _ hx))
      · rw [setVar_other _ _ ew] at hw
        rw [setVar_other _ _ ex] at hx
        exact h.disj w x i hw hx
  · have ho := hor i (List.mem_append_right _ hL)
    by_cases e : w = v
    · subst e
      rw [setVar_self, hput'] at hw
      rcases hw with rfl | hw | hw
      · exact ho.2.1 rfl
      · exact n3 i hw i hL rfl
      · exact ho.1 hw
    · rw [setVar_other _ _ e] at hw
      exact ho.2.2 w e hw

/-- No node gets lost by the change. -/
theorem NoLeak.upd {s s' : St α} {T : Var → AT α} {L L' : AS α} {v : Var} {path : List Nat} {b b' : Info α} {k k' : AS α} (h : NoLeak s T L)
    (hs : sub (T v) path = some (b, k)) (hid : b'.id = b.id)
    (hlive : ∀ i c, s'.mem i = some c → i = b.id ∨ i ∈ ids k' ∨ i ∈ ids L' ∨ (i ∉ ids k ∧ i ∉ ids L ∧ ∃ c', s.mem i = some c')) :
    NoLeak s' (Spec.setVar T v (put (T v) path (some (b', k')))) L' := by
  obtain ⟨rest, p1, p2⟩ := put_perm path hs
  have hput' : ∀ i, i ∈ idsT (put (T v) path (some (b', k'))) ↔ i = b.id ∨ i ∈ ids k' ∨ i ∈ rest := fun i => by
    rw [(p2 _).mem_iff]; simp [idsT, hid]
  intro i c hi
  have hv : ∀ i, i = b.id ∨ i ∈ ids k' ∨ i ∈ rest → ∃ w, i ∈ idsT (Spec.setVar T v (put (T v) path (some (b', k'))) w) := fun i hi =>
    ⟨v, by rw [setVar_self, hput']; exact hi⟩
  rcases hlive i c hi with h1 | h1 | h1 | ⟨h1, h2, c', h3⟩
  · exact .inl (hv i (.inl h1))
  · exact .inl (hv i (.inr (.inl h1)))
  · exact .inr h1
  · rcases h i c' h3 with ⟨w, hw⟩ | hw
    · by_cases e : w = v
      · subst e
        rw [p1.mem_iff] at hw
        simp only [idsT, List.cons_append, List.mem_cons, List.mem_append] at hw
        rcases hw with hw | hw | hw
        · exact .inl (hv i (.inl hw))
        · exact absurd hw h1
        · exact .inl (hv i (.inr (.inr hw)))
      · exact .inl ⟨w, by rw [setVar_other _ _ e]; exact hw⟩
    · exact absurd hw h2

theorem Par.upd {T : Var → AT α} {L L' : AS α} {v : Var} {path : List Nat} {b b' : Info α} {k k' : AS α} (h : Par T L)
    (hs : sub (T v) path = some (b, k)) (hid : b'.id = b.id) (hpar : b'.par = b.par)
    (hk : ParS (some b.id) k → ParS none L → ParS (some b.id) k' ∧ ParS none L') :
    Par (Spec.setVar T v (put (T v) path (some (b', k')))) L' := by
  obtain ⟨h1, h2⟩ := hk (par_sub path (h.1 v) hs) h.2
  refine ⟨fun w => ?_, h2⟩
  by_cases e : w = v
  · subst e
    rw [setVar_self]
    exact par_put path (h.1 w) hs hpar (by rw [hid]; exact h1) hid
  · rw [setVar_other _ _ e]; exact h.1 w

/-- Node `i` is allocated, but not reachable. -/
def Lost (s : St α) (T : Var → AT α) (L : AS α) (i : Nat) : Prop := (∃ c, s.mem i = some c) ∧ (∀ v, i ∉ idsT (T v)) ∧ i ∉ ids L

theorem Lost.upd {s s' : St α} {T : Var → AT α} {L L' : AS α} (h : Inv s T L) {v : Var} {path : List Nat} {b b' : Info α} {k k' : AS α}
    (hs : sub (T v) path = some (b, k)) (u : Upd s s' b k L b' k' L') {i : Nat} (hl : Lost s T L i) :
    Lost s' (Spec.setVar T v (put (T v) path (some (b', k')))) L' i := by
  obtain ⟨⟨c, hc⟩, h1, h2⟩ := hl
  obtain ⟨rest, p1, p2⟩ := put_perm path hs
  have hv : i ≠ b.id ∧ i ∉ ids k ∧ i ∉ rest := by
    have := h1 v
    rw [p1.mem_iff] at this
    simp only [idsT, List.cons_append, List.mem_cons, List.mem_append, not_or] at this
    exact this
  have hnew : i ∉ ids k' ++ ids L' := fun hi => by
    rcases u.origin i hi with ho | ho | ho
    · exact hv.2.1 ho
    · exact h2 ho
    · have := h.lt hc; omega
  simp only [List.mem_append, not_or] at hnew
  refine ⟨⟨c, by rw [u.keep i hv.1 hv.2.1 h2 (h.lt hc)]; exact hc⟩, fun w => ?_, hnew.2⟩
  by_cases e : w = v
  · subst e
    rw [setVar_self, (p2 _).mem_iff]
    simp only [idsT, u.id, List.cons_append, List.mem_cons, List.mem_append, not_or]
    exact ⟨hv.1, hnew.1, hv.2.2⟩
  · rw [setVar_other _ _ e]; exact h1 w

/-- What a part of a statement does with all the properties. -/
structure Good (s : St α) (T : Var → AT α) (L : AS α) (s' : St α) (T' : Var → AT α) (L' : AS α) : Prop where
  inv : Inv s' T' L'
  leak : NoLeak s T L → NoLeak s' T' L'
  par : Par T L → Par T' L'
  lost : ∀ i, Lost s T L i → Lost s' T' L' i

theorem Good.refl {s : St α} {T : Var → AT α} {L : AS α} (h : Inv s T L) : Good s T L s T L := ⟨h, id, id, fun _ => id⟩

theorem Good.of_upd {s s' : St α} {T : Var → AT α} {L L' : AS α} (h : Inv s T L) {v : Var} {path : List Nat} {b b' : Info α} {k k' : AS α}
    (hs : sub (T v) path = some (b, k)) (u : Upd s s' b k L b' k' L')
    (hl : NoLeak s T L → NoLeak s' (Spec.setVar T v (put (T v) path (some (b', k')))) L')
    (hp : Par T L → Par (Spec.setVar T v (put (T v) path (some (b', k')))) L') :
    Good s T L s' (Spec.setVar T v (put (T v) path (some (b', k')))) L' := ⟨h.upd hs u, hl, hp, fun _ => Lost.upd h hs u⟩

theorem Good.trans {s s1 s2 : St α} {T T1 T2 : Var → AT α} {L L1 L2 : AS α} (h1 : Good s T L s1 T1 L1) (h2 : Good s1 T1 L1 s2 T2 L2) :
    Good s T L s2 T2 L2 := ⟨h2.inv, fun h => h2.leak (h1.leak h), fun h => h2.par (h1.par h), fun i h => h2.lost i (h1.lost i h)⟩

end Verif.NMem
