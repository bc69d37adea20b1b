import Verif.NMem.Assign

/-! What goes wrong after a node with children was copied. -/

namespace Verif.NMem
open Nary (Slots Node)
open Spec
variable {α β : Type}

/-! ### A deletion that ends well has found a tree -/

theorem deleteAll_tree {d : St α → Nat → Res (St α)}
    (hd : ∀ s i s', d s i = .ok s' → ∃ b k, b.id = i ∧ RepT s.mem (some (b, k)) ∧ (idsT (some (b, k))).Nodup ∧ s' = without s (idsT (some (b, k)))) :
    ∀ (ps : List Ptr) (s s' : St α), deleteAll d s ps = .ok s' → ∃ k : AS α, ptrs k = ps ∧ Rep s.mem k ∧ (ids k).Nodup ∧ s' = without s (ids k) := by
  intro ps
  induction ps with
  | nil =>
    intro s s' h
    cases h
    exact ⟨.nil, rfl, trivial, List.nodup_nil, (without_nil s).symm⟩
  | cons p ps ih =>
    intro s s' h
    rcases p with _ | i
    · obtain ⟨k, h1, h2, h3, h4⟩ := ih s s' h
      exact ⟨.null k, by rw [← h1]; rfl, h2, h3, h4⟩
    · simp only [deleteAll, Res.bind_eq_ok] at h
      obtain ⟨s1, e1, e2⟩ := h
      obtain ⟨b, k, rfl, r1, n1, rfl⟩ := hd s i s1 e1
      obtain ⟨r, h1, h2, h3, h4⟩ := ih _ s' e2
      have hdis : ∀ i ∈ ids r, i ∉ idsT (some (b, k)) := fun i hi hc => by
        obtain ⟨c, hl⟩ := repS_live h2 hi
        simp only [without, if_pos hc] at hl
        cases hl
      refine ⟨.node b k r, by rw [← h1]; rfl, ⟨r1.1, r1.2, rep_congrS h2 fun i hi => by simp only [without, if_neg (hdis i hi)]⟩, ?_, ?_⟩
      · show ((b.id :: ids k) ++ ids r).Nodup
        exact List.nodup_append.2 ⟨n1, h3, fun i hi j hj e => hdis j hj (e ▸ hi)⟩
      · rw [h4, without_without]
        exact without_congr s fun i => by simp [ids, idsT]; tauto

theorem deleteNode_tree (fuel : Nat) : ∀ (s : St α) (i : Nat) (s' : St α), deleteNode fuel s i = .ok s' →
    ∃ b k, b.id = i ∧ RepT s.mem (some (b, k)) ∧ (idsT (some (b, k))).Nodup ∧ s' = without s (idsT (some (b, k))) := by
  induction fuel with
  | zero => intro s i s' h; cases h
  | succ fuel ih =>
    intro s i s' h
    simp only [deleteNode, Res.bind_eq_ok] at h
    obtain ⟨c, h1, s1, h2, c', h3, h4⟩ := h
    obtain ⟨k, e1, e2, e3, rfl⟩ := deleteAll_tree ih _ _ _ h2
    cases h4
    have hc : s.mem i = some c := by
      simp only [cell] at h1
      cases hm : s.mem i with
      | none => rw [hm] at h1; cases h1
      | some x => rw [hm] at h1; cases h1; rfl
    have hn : i ∉ ids k := fun hc => by
      simp only [cell, without, if_pos hc] at h3
      cases h3
    refine ⟨⟨i, c.par, c.val⟩, k, rfl, ⟨by rw [hc, e1], e2⟩, List.nodup_cons.2 ⟨hn, e3⟩, drop_without s _ i⟩

theorem reset_tree {s s' : St α} {v : Var} (h : reset s v = .ok s') :
    ∃ t : AT α, s.vars v = ptrT t ∧ RepT s.mem t ∧ (idsT t).Nodup ∧ s' = (without s (idsT t)).setVar v none := by
  simp only [reset, Res.bind_eq_ok] at h
  obtain ⟨s1, h1, h2⟩ := h
  cases h2
  cases hv : s.vars v with
  | none =>
    rw [hv] at h1
    cases h1
    exact ⟨none, rfl, trivial, List.nodup_nil, by rw [show idsT (none : AT α) = [] from rfl, without_nil]⟩
  | some i =>
    rw [hv] at h1
    obtain ⟨b, k, e, r, n, rfl⟩ := deleteNode_tree _ _ _ _ h1
    exact ⟨some (b, k), by rw [← e]; rfl, r, n, rfl⟩

theorem deleteAll_noExc {d : St α → Nat → Res (St α)} (hd : ∀ s i e, d s i ≠ .exc e) (ps : List Ptr) : ∀ (s : St α) (e : Exc), deleteAll d s ps ≠ .exc e := by
  induction ps with
  | nil => intro s e h; cases h
  | cons p ps ih =>
    intro s e h
    rcases p with _ | i
    · exact ih s e h
    · simp only [deleteAll] at h
      cases hx : d s i with
      | ok s1 => rw [hx] at h; exact ih s1 e h
      | exc e' => exact hd s i e' hx
      | ub => rw [hx] at h; cases h

theorem deleteNode_noExc (fuel : Nat) : ∀ (s : St α) (i : Nat) (e : Exc), deleteNode fuel s i ≠ .exc e := by
  induction fuel with
  | zero => intro s i e h; cases h
  | succ fuel ih =>
    intro s i e h
    simp only [deleteNode, cell] at h
    cases hm : s.mem i with
    | none => rw [hm] at h; cases h
    | some c =>
      rw [hm] at h
      simp only [Res.bind_ok] at h
      cases hx : deleteAll (deleteNode fuel) s c.kids with
      | ok s1 =>
        rw [hx] at h
        simp only [Res.bind_ok] at h
        cases hm1 : s1.mem i with
        | none => rw [hm1] at h; cases h
        | some c => rw [hm1] at h; cases h
      | exc e' => exact deleteAll_noExc ih _ _ _ hx
      | ub => rw [hx] at h; cases h

theorem reset_noExc (s : St α) (v : Var) (e : Exc) : reset s v ≠ .exc e := by
  intro h
  unfold reset at h
  cases hv : s.vars v with
  | none => rw [hv] at h; cases h
  | some i =>
    rw [hv] at h
    simp only [deletePtr] at h
    cases hx : deleteNode s.fuel s i with
    | ok s1 => rw [hx] at h; cases h
    | exc e' => exact deleteNode_noExc _ _ _ _ hx
    | ub => rw [hx] at h; cases h

/-! ### Paths -/

theorem sub_unique (p : List Nat) : ∀ {t : AT α} (q : List Nat) {b b2 : Info α} {k k2 : AS α}, (idsT t).Nodup → sub t p = some (b, k) → sub t q = some (b2, k2) →
    b.id = b2.id → p = q := by
  intro t q b b2 k k2 hn h1 h2 he
  by_contra hne
  exact (sub_put_nil q p h2 h1 (Ne.symm hne) hn).1 he

theorem follow_append (s : St α) (p q : List Nat) : ∀ r : Ptr, follow s r (p ++ q) = follow s (follow s r p) q := by
  induction p with
  | nil => intro r; cases r <;> rfl
  | cons a p ih =>
    intro r
    rcases r with _ | i
    · cases q <;> rfl
    · simp only [List.cons_append, follow]
      cases s.mem i with
      | none => cases q <;> rfl
      | some c => exact ih _

/-- A path that does not go through a node does not depend on it. -/
theorem follow_set (s : St α) (i : Nat) (c : Cell α) (path : List Nat) : ∀ r : Ptr, (∀ q a r', path = q ++ a :: r' → follow s r q ≠ some i) →
    follow (s.set i c) r path = follow s r path := by
  induction path with
  | nil => intro r _; cases r <;> rfl
  | cons a path ih =>
    intro r h
    rcases r with _ | j
    · rfl
    · have hj : j ≠ i := fun e => h [] a path rfl (by simp [follow, e])
      simp only [follow, set_other _ _ hj]
      cases hm : s.mem j with
      | none => rfl
      | some d => exact ih _ fun q b r' e hc => h (a :: q) b r' (by rw [e]; rfl) (by simp only [follow, hm]; exact hc)

/-- Nothing can be destroyed twice: two places share the node `x`. -/
theorem shared_bad {s : St α} {l m : Loc} {x : Nat} (h1 : follow s (s.vars l.var) l.path = some x) (h2 : follow s (s.vars m.var) m.path = some x) (hne : l ≠ m) :
    (do let s ← reset s m.var; reset s l.var) = Res.ub := by
  have key : ∀ s1 s2, reset s m.var = .ok s1 → reset s1 l.var = .ok s2 → False := fun s1 s2 e1 e2 => by
    obtain ⟨t, v1, r1, n1, rfl⟩ := reset_tree e1
    rw [v1, follow_rep _ r1] at h2
    obtain ⟨⟨b, k⟩, hs, hb⟩ := Option.map_eq_some_iff.1 h2
    by_cases hv : l.var = m.var
    · rw [hv, v1, follow_rep _ r1] at h1
      obtain ⟨⟨b', k'⟩, hs', hb'⟩ := Option.map_eq_some_iff.1 h1
      have := sub_unique _ _ n1 hs' hs (hb'.trans hb.symm)
      obtain ⟨lv, lp⟩ := l
      obtain ⟨mv, mp⟩ := m
      exact hne (by dsimp only at hv this; rw [hv, this])
    · obtain ⟨t', v2, r2, -, -⟩ := reset_tree e2
      have v2 : s.vars l.var = ptrT t' := by rw [← v2, setVar_vars, if_neg hv]; rfl
      have r2 : RepT (without s (idsT t)).mem t' := r2
      have hlive : ∀ i ∈ idsT t', i ∉ idsT t := fun i hi hc => by
        obtain ⟨c, hl⟩ := rep_live r2 hi
        simp only [without, if_pos hc] at hl
        cases hl
      have r3 : RepT s.mem t' := rep_congr r2 fun i hi => by simp only [without, if_neg (hlive i hi)]
      rw [v2, follow_rep _ r3] at h1
      obtain ⟨⟨b', k'⟩, hs', hb'⟩ := Option.map_eq_some_iff.1 h1
      have hx : x ∈ idsT t' := ids_sub hs' (by rw [← hb']; simp [idsT])
      exact hlive x hx (ids_sub hs (by rw [← hb]; simp [idsT]))
  cases e1 : reset s m.var with
  | ok s1 =>
    simp only [Res.bind_ok]
    cases e2 : reset s1 l.var with
    | ok s2 => exact (key s1 s2 e1 e2).elim
    | exc e => exact absurd e2 (reset_noExc _ _ _)
    | ub => rfl
  | exc e => exact absurd e1 (reset_noExc _ _ _)
  | ub => rfl

/-! ### After a copy -/

theorem not_childless {s : St α} {p : Ptr} (h : ¬ Childless s p) : ∃ (i : Nat) (c : Cell α) (n x : Nat), p = some i ∧ s.mem i = some c ∧ c.kids[n]? = some (some x) := by
  simp only [Childless, not_forall] at h
  obtain ⟨i, c, h1, h2, q, hq, hn⟩ := h
  obtain ⟨n, hn'⟩ := List.mem_iff_getElem?.1 hq
  rcases q with _ | x
  · exact absurd rfl hn
  · exact ⟨i, c, n, x, h1, h2, hn'⟩

theorem follow_last {s : St α} {r : Ptr} {path : List Nat} {i n x : Nat} {c : Cell α} (h1 : follow s r path = some i) (h2 : s.mem i = some c)
    (h3 : c.kids[n]? = some (some x)) : follow s r (path ++ [n]) = some x := by
  rw [follow_append, h1]
  simp [follow, h2, h3]

/-- A node with a child was copied to a node that is not above. -/
theorem assign_bad {max : Nat} {dflt : α} {s : St α} {T : Var → AT α} (h : Inv s T .nil) {l m : Loc} (hl : Spec.node s l ≠ none) (hc : ¬ Childless s (Spec.node s m))
    (hb : ¬ Below l m) : ∃ s', nstep max dflt s (.assign l m) = .ok (.unit, s') ∧ (do let s ← reset s' m.var; reset s l.var) = Res.ub := by
  obtain ⟨i, c, n, x, e1, e2, e3⟩ := not_childless hc
  have hm := e1
  rw [h.node] at hl hm
  cases hl' : sub (T l.var) l.path with
  | none => rw [hl'] at hl; exact absurd rfl hl
  | some nd =>
  obtain ⟨b, k⟩ := nd
  cases hm' : sub (T m.var) m.path with
  | none => rw [hm'] at hm; cases hm
  | some nd2 =>
  obtain ⟨b2, k2⟩ := nd2
  rw [hm'] at hm
  have hm : b2.id = i := by cases hm; rfl
  obtain ⟨cl, -⟩ := h.at hl'
  obtain ⟨cm, -⟩ := h.at hm'
  rw [hm] at cm
  rw [cm] at e2
  have hrun : nstep max dflt s (.assign l m) = .ok (.unit, s.set b.id c) := by
    simp only [nstep, on_some h hm', on_some h hl', hm, assignNode, cell_eq (cm.trans e2), Res.bind_ok, change_eq cl]
  refine ⟨_, hrun, ?_⟩
  -- nodes on the way to the two nodes
  have hway : ∀ (w : Loc), (l.var = w.var → ∀ r, w.path = l.path ++ r → r = []) →
      follow (s.set b.id c) ((s.set b.id c).vars w.var) w.path = follow s (s.vars w.var) w.path := fun w hw => by
    refine follow_set s _ c _ _ fun q a r' e hf => ?_
    rw [show (s.set b.id c).vars w.var = ptrT (T w.var) from h.root w.var, follow_rep _ (h.rep w.var)] at hf
    obtain ⟨⟨b3, k3⟩, hs3, hb3⟩ := Option.map_eq_some_iff.1 hf
    have hv : l.var = w.var := h.disj _ _ b.id (ids_sub hl' (by simp [idsT])) (ids_sub hs3 (by rw [← hb3]; simp [idsT]))
    have hq : q = l.path := sub_unique _ _ (h.nodup w.var) hs3 (by rw [← hv]; exact hl') hb3
    have := hw hv (a :: r') (by rw [← hq]; exact e)
    cases this
  have fl : follow (s.set b.id c) ((s.set b.id c).vars l.var) l.path = some b.id := by
    rw [hway l fun _ r e => by simpa using e]
    have := h.node l
    rw [hl'] at this
    exact this
  have fm : follow (s.set b.id c) ((s.set b.id c).vars m.var) m.path = some i := by
    rw [hway m fun hv r e => absurd ⟨hv, ⟨r, e.symm⟩⟩ hb]
    exact e1
  have hlm : l ≠ m := fun e => hb (e ▸ ⟨rfl, List.prefix_rfl⟩)
  have hcm : (s.set b.id c).mem i = some c := by
    by_cases e : i = b.id
    · rw [e, set_self]
    · rw [set_other _ _ e, cm]; exact e2
  exact shared_bad (l := ⟨l.var, l.path ++ [n]⟩) (m := ⟨m.var, m.path ++ [n]⟩) (follow_last fl (set_self _ _ _) e3) (follow_last fm hcm e3) fun e => hlm (by
    obtain ⟨lv, lp⟩ := l
    obtain ⟨mv, mp⟩ := m
    simpa using e)

/-- A tree with more than one node was copied to another tree. -/
theorem copy_bad {max : Nat} {dflt : α} {s : St α} {T : Var → AT α} (h : Inv s T .nil) {k j : Nat} (hne : k ≠ j) (hc : ¬ Childless s (s.vars (.tree j))) :
    ∃ s', nstep max dflt s (.copy k j) = .ok (.unit, s') ∧ (do let s ← reset s' (.tree j); reset s (.tree k)) = Res.ub := by
  obtain ⟨i, c, n, x, e1, e2, e3⟩ := not_childless hc
  have hlt := h.lt e2
  have hvne : Var.tree j ≠ .tree k := fun hc => hne (by injection hc with hc; exact hc.symm)
  have hcj : ((alloc s none dflt).setVar (.tree k) (some s.next)).mem i = some c := by
    show (alloc s none dflt).mem i = _
    rw [alloc_mem, if_neg (by omega), e2]
  have hcn : ((alloc s none dflt).setVar (.tree k) (some s.next)).mem s.next = some ⟨none, dflt, []⟩ := by
    show (alloc s none dflt).mem s.next = _
    rw [alloc_mem, if_pos rfl]
  have hx : ((alloc s none dflt).setVar (.tree k) (some s.next)).vars (.tree j) = some i := by
    rw [setVar_vars, if_neg hvne]; exact e1
  refine ⟨((alloc s none dflt).setVar (.tree k) (some s.next)).set s.next c, by simp only [nstep, copyTree, e1, hx, assignNode, cell_eq hcj, change_eq hcn, Res.bind_ok], ?_⟩
  refine shared_bad (l := ⟨.tree k, [n]⟩) (m := ⟨.tree j, [n]⟩) (x := x) ?_ ?_ fun e => hne (by simpa using e)
  · show follow _ (((alloc s none dflt).setVar (.tree k) (some s.next)).vars (.tree k)) ([] ++ [n]) = _
    rw [setVar_vars, if_pos rfl]
    exact follow_last rfl (set_self _ _ _) e3
  · show follow _ (((alloc s none dflt).setVar (.tree k) (some s.next)).vars (.tree j)) ([] ++ [n]) = _
    rw [hx]
    exact follow_last rfl (by rw [set_other _ _ (by omega)]; exact hcj) e3

/-! ### The number of slots -/

/-- No node has more than `max` slots. -/
def Bound (max : Nat) (s : St α) : Prop := ∀ i c, s.mem i = some c → c.kids.length ≤ max

theorem bound_set {max : Nat} {s : St α} (h : Bound max s) (i : Nat) {c : Cell α} (hc : c.kids.length ≤ max) : Bound max (s.set i c) := by
  intro j d hj
  by_cases e : j = i
  · subst e; rw [set_self] at hj; cases hj; exact hc
  · rw [set_other _ _ e] at hj; exact h j d hj

theorem bound_alloc {max : Nat} {s : St α} (h : Bound max s) (p : Ptr) (x : α) : Bound max (alloc s p x) := by
  intro j d hj
  rw [alloc_mem] at hj
  by_cases e : j = s.next
  · rw [if_pos e] at hj; cases hj; exact Nat.zero_le _
  · rw [if_neg e] at hj; exact h j d hj

theorem bound_without {max : Nat} {s : St α} (h : Bound max s) (l : List Nat) : Bound max (without s l) := by
  intro j d hj
  simp only [without] at hj
  by_cases e : j ∈ l
  · rw [if_pos e] at hj; cases hj
  · rw [if_neg e] at hj; exact h j d hj

theorem cell_ok {s : St α} {i : Nat} {c : Cell α} (h : cell s i = .ok c) : s.mem i = some c := by
  simp only [cell] at h
  cases hm : s.mem i with
  | none => rw [hm] at h; cases h
  | some x => rw [hm] at h; cases h; rfl

theorem change_ok {s s' : St α} {i : Nat} {f : Cell α → Cell α} (h : change s i f = .ok s') : ∃ c, s.mem i = some c ∧ s' = s.set i (f c) := by
  simp only [change] at h
  cases hm : s.mem i with
  | none => rw [hm] at h; cases h
  | some x => rw [hm] at h; cases h; exact ⟨x, rfl, rfl⟩

theorem bound_change {max : Nat} {s s' : St α} (h : Bound max s) {i : Nat} {f : Cell α → Cell α} (hc : change s i f = .ok s')
    (hf : ∀ c, s.mem i = some c → (f c).kids.length ≤ max) : Bound max s' := by
  obtain ⟨c, h1, rfl⟩ := change_ok hc
  exact bound_set h i (hf c h1)

theorem bound_deletePtr {max : Nat} {s s' : St α} (h : Bound max s) {fuel : Nat} {p : Ptr} (hd : deletePtr fuel s p = .ok s') : Bound max s' := by
  rcases p with _ | i
  · cases hd; exact h
  · obtain ⟨b, k, -, -, -, rfl⟩ := deleteNode_tree _ _ _ _ hd
    exact bound_without h _

theorem bound_setVar {max : Nat} {s : St α} (h : Bound max s) (v : Var) (p : Ptr) : Bound max (s.setVar v p) := h

theorem bound_reset {max : Nat} {s s' : St α} (h : Bound max s) {v : Var} (hr : reset s v = .ok s') : Bound max s' := by
  simp only [reset, Res.bind_eq_ok] at hr
  obtain ⟨s1, h1, h2⟩ := hr
  cases h2
  exact bound_setVar (bound_deletePtr h h1) v none

theorem bound_store {max : Nat} {s s' : St α} (h : Bound max s) {u : Nat} {p : Ptr} (hr : store s u p = .ok s') : Bound max s' :=
  bound_deletePtr (s := s.setVar (.uptr u) p) h hr

theorem bound_take {max : Nat} {s s' : St α} (h : Bound max s) {i pos : Nat} {r : Ptr} (ht : takeChild s i pos = .ok (r, s')) : Bound max s' := by
  simp only [takeChild, Res.bind_eq_ok] at ht
  obtain ⟨c, h1, h2⟩ := ht
  split at h2
  · simp only [Res.bind_eq_ok] at h2
    obtain ⟨s1, h3, s2, h4, h5⟩ := h2
    cases h5
    have hb := bound_change h h3 fun c hc => h _ c hc
    exact bound_change hb h4 fun c hc => by simpa using hb _ c hc
  · cases h2; exact h

theorem bound_add {max : Nat} {s s' : St α} (h : Bound max s) {i : Nat} {x : α} {b : Bool} (ht : addChild max s i x = .ok (b, s')) : Bound max s' := by
  simp only [addChild, Res.bind_eq_ok] at ht
  obtain ⟨c, h1, h2⟩ := ht
  have hc := cell_ok h1
  split at h2
  · rename_i hlt
    simp only [Res.bind_eq_ok] at h2
    obtain ⟨s1, h3, h4⟩ := h2
    cases h4
    refine bound_change (bound_alloc h _ _) h3 fun d hd => ?_
    rw [alloc_mem] at hd
    by_cases e : i = s.next
    · rw [if_pos e] at hd
      cases hd
      simp only [List.nil_append, List.length_cons, List.length_nil]
      omega
    · rw [if_neg e, hc] at hd
      cases hd
      simp only [List.length_append, List.length_cons, List.length_nil]
      omega
  · cases h2; exact h

theorem length_resize (l : List Ptr) (n : Nat) : (resize l n).length = n := by
  simp only [resize, List.length_append, List.length_take, List.length_replicate]
  omega

theorem bound_insert {max : Nat} {s s' : St α} (h : Bound max s) {i pos : Nat} {x : α} {b : Bool} (ht : insertAt max s i pos x = .ok (b, s')) : Bound max s' := by
  simp only [insertAt, Res.bind_eq_ok] at ht
  obtain ⟨c, h1, h2⟩ := ht
  split at h2
  · rename_i hlt
    split at h2
    · split at h2
      · simp only [Res.bind_eq_ok] at h2
        obtain ⟨s1, h3, h4⟩ := h2
        cases h4
        have hb := bound_alloc h (some i) x
        exact bound_change hb h3 fun c hc => by simpa using hb _ c hc
      · cases h2; exact h
    · simp only [Res.bind_eq_ok] at h2
      obtain ⟨s1, h3, s2, h4, h5⟩ := h2
      cases h5
      have hb1 := bound_change h h3 fun c _ => by simp only [length_resize]; omega
      have hb := bound_alloc hb1 (some i) x
      exact bound_change hb h4 fun c hc => by simpa using hb _ c hc
  · cases h2; exact h

theorem bound_replace {max : Nat} {s s' : St α} (h : Bound max s) {i pos : Nat} {x : α} {r : Ptr} (ht : replaceAt max s i pos x = .ok (r, s')) : Bound max s' := by
  simp only [replaceAt, Res.bind_eq_ok, Prod.exists] at ht
  obtain ⟨c, h1, r1, s1, h2, c2, h3, h4⟩ := ht
  have hb1 : Bound max s1 := by
    split at h2
    · split at h2
      · exact bound_take h h2
      · simp only [Res.bind_eq_ok] at h2
        obtain ⟨s2, h5, h6⟩ := h2
        cases h6
        exact bound_change h h5 fun c _ => by simp only [length_resize]; omega
    · cases h2; exact h
  split at h4
  · simp only [Res.bind_eq_ok] at h4
    obtain ⟨s2, h5, h6⟩ := h4
    cases h6
    have hb := bound_alloc hb1 (some i) x
    exact bound_change hb h5 fun c hc => by simpa using hb _ c hc
  · cases h4

theorem onNode_ok {s s' : St α} {l : Loc} {f : Nat → Res (NOut α × St α)} {o : NOut α} (h : NMem.onNode s l f = .ok (o, s')) :
    s' = s ∨ ∃ i, f i = .ok (o, s') := by
  simp only [NMem.onNode] at h
  split at h
  · exact .inr ⟨_, h⟩
  · cases h; exact .inl rfl
  · cases h

theorem bound_step {max : Nat} {dflt : α} {s s' : St α} (h : Bound max s) {op : NOp α} {o : NOut α} (hr : nstep max dflt s op = .ok (o, s')) : Bound max s' := by
  cases op with
  | addRoot k x =>
    simp only [nstep, addRoot, Res.bind_eq_ok] at hr
    obtain ⟨s1, ⟨s2, h1, h2⟩, h3⟩ := hr
    cases h3
    cases h2
    exact bound_alloc (bound_reset h h1) _ _
  | addChild l x =>
    rcases onNode_ok hr with rfl | ⟨i, hr⟩
    · exact h
    · simp only [Res.bind_eq_ok, Prod.exists] at hr
      obtain ⟨b, s1, h1, h2⟩ := hr
      cases h2
      exact bound_add h h1
  | insertFirstNull l x =>
    rcases onNode_ok hr with rfl | ⟨i, hr⟩
    · exact h
    · simp only [Res.bind_eq_ok, Prod.exists] at hr
      obtain ⟨b, s1, h1, h2⟩ := hr
      cases h2
      simp only [insertFirstNull, Res.bind_eq_ok] at h1
      obtain ⟨c, h3, h4⟩ := h1
      split at h4
      · simp only [Res.bind_eq_ok] at h4
        obtain ⟨s2, h5, h6⟩ := h4
        cases h6
        have hb := bound_alloc h (some i) x
        exact bound_change hb h5 fun c hc => by simpa using hb _ c hc
      · exact bound_add h h4
  | insertAt l pos x =>
    rcases onNode_ok hr with rfl | ⟨i, hr⟩
    · exact h
    · simp only [Res.bind_eq_ok, Prod.exists] at hr
      obtain ⟨b, s1, h1, h2⟩ := hr
      cases h2
      exact bound_insert h h1
  | replaceAt l pos x u =>
    rcases onNode_ok hr with rfl | ⟨i, hr⟩
    · exact h
    · simp only [Res.bind_eq_ok, Prod.exists] at hr
      obtain ⟨b, s1, h1, s2, h2, h3⟩ := hr
      cases h3
      exact bound_store (bound_replace h h1) h2
  | deleteChild l pos =>
    rcases onNode_ok hr with rfl | ⟨i, hr⟩
    · exact h
    · simp only [Res.bind_eq_ok, Prod.exists] at hr
      obtain ⟨b, s1, h1, h2⟩ := hr
      cases h2
      simp only [deleteChild, Res.bind_eq_ok] at h1
      obtain ⟨c, h3, h4⟩ := h1
      split at h4
      · cases h4; exact h
      · simp only [Res.bind_eq_ok] at h4
        obtain ⟨s2, h5, s3, h6, h7⟩ := h4
        cases h7
        have hb := bound_deletePtr h h5
        exact bound_change hb h6 fun c hc => Nat.le_trans (List.length_eraseIdx_le _ _) (hb _ c hc)
  | extractChild l pos u =>
    rcases onNode_ok hr with rfl | ⟨i, hr⟩
    · exact h
    · simp only [Res.bind_eq_ok, Prod.exists] at hr
      obtain ⟨b, s1, h1, s2, h2, h3⟩ := hr
      cases h3
      exact bound_store (bound_take h h1) h2
  | setValue l x =>
    rcases onNode_ok hr with rfl | ⟨i, hr⟩
    · exact h
    · simp only [Res.bind_eq_ok] at hr
      obtain ⟨s1, h1, h2⟩ := hr
      cases h2
      exact bound_change h h1 fun c hc => h _ c hc
  | swapValues l m =>
    rcases onNode_ok hr with rfl | ⟨i, hr⟩
    · exact h
    · rcases onNode_ok hr with rfl | ⟨j, hr⟩
      · exact h
      · simp only [swapValues, Res.bind_eq_ok] at hr
        obtain ⟨s1, ⟨t, -, c, -, s2, h1, h2⟩, h3⟩ := hr
        cases h3
        have hb := bound_change h h1 fun c hc => h _ c hc
        exact bound_change hb h2 fun c hc => hb _ c hc
  | clearNode l =>
    rcases onNode_ok hr with rfl | ⟨i, hr⟩
    · exact h
    · simp only [clearNode, Res.bind_eq_ok] at hr
      obtain ⟨s1, ⟨c, -, s2, h1, h2⟩, h3⟩ := hr
      cases h3
      obtain ⟨k, -, -, -, rfl⟩ := deleteAll_tree (deleteNode_tree s.fuel) _ _ _ h1
      exact bound_change (bound_without h _) h2 fun c _ => Nat.zero_le _
  | assign l m =>
    rcases onNode_ok hr with rfl | ⟨i, hr⟩
    · exact h
    · rcases onNode_ok hr with rfl | ⟨j, hr⟩
      · exact h
      · simp only [assignNode, Res.bind_eq_ok] at hr
        obtain ⟨s1, ⟨c, h1, h2⟩, h3⟩ := hr
        cases h3
        exact bound_change h h2 fun _ _ => h _ c (cell_ok h1)
  | moveAssign l m =>
    rcases onNode_ok hr with rfl | ⟨i, hr⟩
    · exact h
    · rcases onNode_ok hr with rfl | ⟨j, hr⟩
      · exact h
      · simp only [moveNode, Res.bind_eq_ok] at hr
        obtain ⟨s1, ⟨c, h1, s2, h2, s3, h3, c2, h4, s4, h5, h6⟩, h7⟩ := hr
        cases h7
        have b2 := bound_change h h2 fun c hc => h _ c hc
        have b3 := bound_change b2 h3 fun c hc => b2 _ c hc
        have b4 := bound_change b3 h5 fun _ _ => b3 _ c2 (cell_ok h4)
        exact bound_change b4 h6 fun _ _ => Nat.zero_le _
  | get l =>
    rcases onNode_ok hr with rfl | ⟨i, hr⟩
    · exact h
    · simp only [Res.bind_eq_ok] at hr
      obtain ⟨c, -, h2⟩ := hr
      cases h2
      exact h
  | childrenCount l =>
    rcases onNode_ok hr with rfl | ⟨i, hr⟩
    · exact h
    · simp only [Res.bind_eq_ok] at hr
      obtain ⟨c, -, h2⟩ := hr
      cases h2
      exact h
  | hasChild l pos =>
    rcases onNode_ok hr with rfl | ⟨i, hr⟩
    · exact h
    · simp only [Res.bind_eq_ok] at hr
      obtain ⟨c, -, h2⟩ := hr
      cases h2
      exact h
  | reset v =>
    simp only [nstep, Res.bind_eq_ok] at hr
    obtain ⟨s1, h1, h2⟩ := hr
    cases h2
    exact bound_reset h h1
  | copy k j =>
    simp only [nstep, Res.bind_eq_ok] at hr
    obtain ⟨s1, h1, h2⟩ := hr
    cases h2
    simp only [copyTree] at h1
    split at h1
    · cases h1; exact h
    · split at h1
      · simp only [assignNode, Res.bind_eq_ok] at h1
        obtain ⟨c, h3, h4⟩ := h1
        have hb : Bound max ((alloc s none dflt).setVar (.tree k) (some s.next)) := bound_alloc h none dflt
        exact bound_change hb h4 fun _ _ => hb _ c (cell_ok h3)
      · cases h1
  | move k j => cases hr; exact h
  | moveUptr u g =>
    simp only [nstep, Res.bind_eq_ok] at hr
    obtain ⟨s1, h1, h2⟩ := hr
    cases h2
    exact bound_store (s := s.setVar (.uptr g) none) h h1

/-- `replace_at` at or beyond the maximum writes outside the vector. -/
theorem replace_bad {max : Nat} {dflt : α} {s : St α} {T : Var → AT α} (h : Inv s T .nil) (hb : Bound max s) {l : Loc} (hl : Spec.node s l ≠ none) {pos : Nat}
    (hp : max ≤ pos) (x : α) (u : Nat) : nstep max dflt s (.replaceAt l pos x u) = .ub := by
  rw [h.node] at hl
  cases hs : sub (T l.var) l.path with
  | none => rw [hs] at hl; exact absurd rfl hl
  | some nd =>
    obtain ⟨b, k⟩ := nd
    obtain ⟨hm, -⟩ := h.at hs
    have hne : b.id ≠ s.next := by have := h.node_lt hs; omega
    have hm' : (alloc s (some b.id) x).mem b.id = some ⟨b.par, b.val, ptrs k⟩ := by rw [alloc_mem, if_neg hne, hm]
    have hlen : ¬ pos < (ptrs k).length := by have := hb _ _ hm; simp only at this; omega
    simp only [nstep, on_some h hs, replaceAt, cell_eq hm, Res.bind_ok, if_neg (show ¬ pos < max by omega), cell_eq hm', if_neg hlen, Res.bind_ub]

end Verif.NMem
