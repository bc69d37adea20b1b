import Verif.NMem.Step

/-! Every safe statement keeps the invariant: statements that name two nodes or two trees. -/

namespace Verif.NMem
open Nary (Slots Node)
open Spec
variable {α β : Type}

/-! ### Two places in a tree -/

theorem slot_modify (k : Slots β) (p q : Nat) (f : Tree β → Tree β) (h : p < k.toList.length) :
    slot (ofList (k.toList.modify p f)) q = if q = p then f (slot k p) else slot k q := by
  rw [slot_ofList, List.getElem?_modify]
  by_cases e : q = p
  · subst e
    rw [if_pos rfl]
    simp [slot, List.getElem?_eq_getElem h]
  · rw [if_neg e]
    simp only [if_neg (Ne.symm e), slot]
    cases k.toList[q]? <;> rfl

theorem sub_lt {k : Slots β} {p : Nat} {path : List Nat} {n : Node β} (h : sub (slot k p) path = some n) : p < k.toList.length := by
  by_contra hc
  rw [slot, List.getElem?_eq_none (by omega)] at h
  simp [sub_none] at h

theorem slot_unique {k : AS α} (h : (ids k).Nodup) {p q i : Nat} (h1 : i ∈ idsT (slot k p)) (h2 : i ∈ idsT (slot k q)) : p = q := by
  induction k generalizing p q with
  | nil => simp [slot, Slots.toList, idsT] at h1
  | null r ih =>
    cases p with
    | zero => simp [slot, Slots.toList, idsT] at h1
    | succ p =>
      cases q with
      | zero => simp [slot, Slots.toList, idsT] at h2
      | succ q => rw [ih h (p := p) (q := q) h1 h2]
  | node b k r _ ih =>
    have hd : ∀ n, i ∈ idsT (slot r n) → i ∉ b.id :: ids k := fun n hn hc => by
      have := (List.nodup_append.1 (show ((b.id :: ids k) ++ ids r).Nodup from h)).2.2
      exact this i hc i (mem_ids.2 ⟨n, hn⟩) rfl
    cases p with
    | zero =>
      cases q with
      | zero => rfl
      | succ q => exact absurd h1 (hd q h2)
    | succ p =>
      cases q with
      | zero => exact absurd h2 (hd p h1)
      | succ q => rw [ih (List.nodup_append.1 (show ((b.id :: ids k) ++ ids r).Nodup from h)).2.1 (p := p) (q := q) h1 h2]

/-- A node with a new value: the addresses stay. -/
theorem sub_put_id (p : List Nat) : ∀ {t : AT α} {b b' : Info α} {k : AS α} (q : List Nat), sub t p = some (b, k) → b'.id = b.id →
    (sub (put t p (some (b', k))) q).map (fun n => n.1.id) = (sub t q).map (fun n => n.1.id) := by
  induction p with
  | nil =>
    intro t b b' k q h hid
    rw [sub_nil] at h
    subst h
    cases q with
    | nil => rw [put_nil, sub_nil, sub_nil]; simp [hid]
    | cons q0 q => rfl
  | cons p0 p ih =>
    intro t b b' k q h hid
    rcases t with _ | ⟨c, kc⟩
    · cases h
    have h : sub (slot kc p0) p = some (b, k) := h
    cases q with
    | nil => rfl
    | cons q0 q =>
      show (sub (slot (ofList (kc.toList.modify p0 fun t => put t p (some (b', k)))) q0) q).map _ = (sub (slot kc q0) q).map _
      rw [slot_modify _ _ _ _ (sub_lt h)]
      by_cases e : q0 = p0
      · subst e
        rw [if_pos rfl]
        exact ih q h hid
      · rw [if_neg e]

/-- A node loses its children: what happens to the other nodes of the tree. -/
theorem sub_put_nil (p : List Nat) : ∀ {t : AT α} {b2 b : Info α} {k2 k : AS α} (q : List Nat), sub t p = some (b2, k2) → sub t q = some (b, k) →
    p ≠ q → (idsT t).Nodup →
    b.id ≠ b2.id ∧
    ((sub (put t p (some (b2, .nil))) q = none ∧ b.id ∈ ids k2 ∧ p <+: q) ∨
      ∃ k', sub (put t p (some (b2, .nil))) q = some (b, k') ∧ (∀ i ∈ ids k', i ∈ ids k) ∧ (ids k ≠ [] → ids k' ≠ [])) := by
  induction p with
  | nil =>
    intro t b2 b k2 k q h1 h2 hne hnd
    rw [sub_nil] at h1
    subst h1
    cases q with
    | nil => exact absurd rfl hne
    | cons q0 q =>
      have h2 : sub (slot k2 q0) q = some (b, k) := h2
      have hin : b.id ∈ ids k2 := mem_ids.2 ⟨q0, ids_sub h2 (by simp [idsT])⟩
      refine ⟨fun e => (List.nodup_cons.1 hnd).1 (e ▸ hin), .inl ⟨?_, hin, List.nil_prefix⟩⟩
      rw [put_nil]
      show sub (slot .nil q0) q = none
      simp [slot, Slots.toList, sub_none]
  | cons p0 p ih =>
    intro t b2 b k2 k q h1 h2 hne hnd
    rcases t with _ | ⟨c, kc⟩
    · cases h1
    have h1 : sub (slot kc p0) p = some (b2, k2) := h1
    obtain ⟨hc, hkc⟩ := List.nodup_cons.1 hnd
    have hb2 : b2.id ∈ ids kc := mem_ids.2 ⟨p0, ids_sub h1 (by simp [idsT])⟩
    cases q with
    | nil =>
      rw [sub_nil] at h2
      cases h2
      refine ⟨fun e => hc (e ▸ hb2), .inr ⟨_, rfl, fun i hi => ?_, fun _ hz => ?_⟩⟩
      rotate_left
      · have h3 : sub (slot (ofList (k.toList.modify p0 fun t => put t p (some (b2, .nil)))) p0) p = some (b2, .nil) := by
          rw [slot_modify _ _ _ _ (sub_lt h1), if_pos rfl, sub_put p h1]
        have := mem_ids.2 ⟨p0, ids_sub h3 (show b2.id ∈ _ by simp [idsT])⟩
        rw [hz] at this
        cases this
      rw [ids_ofList] at hi
      rw [ids_toList]
      obtain ⟨u, hu, hi⟩ := List.mem_flatMap.1 hi
      obtain ⟨n, hn⟩ := List.mem_iff_getElem?.1 hu
      rw [List.getElem?_modify] at hn
      cases hk : k.toList[n]? with
      | none => rw [hk] at hn; cases hn
      | some x =>
        rw [hk] at hn
        simp only [Option.map_eq_map, Option.map_some, Option.some.injEq] at hn
        refine List.mem_flatMap.2 ⟨x, List.mem_of_getElem? hk, ?_⟩
        by_cases e : p0 = n
        · subst e
          simp only [if_true] at hn
          have hx : slot k p0 = x := by simp [slot, hk]
          have h1 : sub (slot k p0) p = some (b2, k2) := h1
          rw [hx] at h1
          obtain ⟨rest, q1, q2⟩ := put_perm p h1
          subst hn
          rw [(q2 _).mem_iff] at hi
          rw [q1.mem_iff]
          simp only [idsT, List.mem_append, List.mem_cons, ids, List.not_mem_nil, or_false] at hi ⊢
          rcases hi with hi | hi
          · exact .inl (.inl hi)
          · exact .inr hi
        · simp only [if_neg e] at hn
          subst hn
          exact hi
    | cons q0 q =>
      have h2 : sub (slot kc q0) q = some (b, k) := h2
      show b.id ≠ b2.id ∧ ((sub (slot (ofList (kc.toList.modify p0 fun t => put t p (some (b2, .nil)))) q0) q = none ∧ _ ∧ _) ∨
        ∃ k', sub (slot (ofList (kc.toList.modify p0 fun t => put t p (some (b2, .nil)))) q0) q = some (b, k') ∧ _)
      rw [slot_modify _ _ _ _ (sub_lt h1)]
      by_cases e : q0 = p0
      · subst e
        rw [if_pos rfl]
        obtain ⟨r1, r2⟩ := ih q h1 h2 (fun e => hne (by rw [e])) (nodup_slot hkc q0)
        refine ⟨r1, ?_⟩
        rcases r2 with ⟨r2, r3, r4⟩ | r2
        · exact .inl ⟨r2, r3, List.cons_prefix_cons.2 ⟨rfl, r4⟩⟩
        · exact .inr r2
      · rw [if_neg e]
        refine ⟨fun hc => ?_, .inr ⟨k, h2, fun i hi => hi, id⟩⟩
        have m1 : b.id ∈ idsT (slot kc q0) := ids_sub h2 (by simp [idsT])
        have m2 : b.id ∈ idsT (slot kc p0) := ids_sub h1 (by simp [idsT, hc])
        exact e (slot_unique hkc m1 m2)

theorem Inv.sub_lift {s : St α} {T : Var → AT α} (h : Inv s T .nil) {l m : Loc} {b b2 : Info α} {k k2 : AS α} (hl : sub (T l.var) l.path = some (b, k))
    (hm : sub (T m.var) m.path = some (b2, k2)) (hne : l ≠ m) :
    b.id ≠ b2.id ∧
    ((sub (Spec.setVar T m.var (put (T m.var) m.path (some (b2, .nil))) l.var) l.path = none ∧ b.id ∈ ids k2 ∧ Below m l) ∨
      ∃ k', sub (Spec.setVar T m.var (put (T m.var) m.path (some (b2, .nil))) l.var) l.path = some (b, k') ∧ (∀ i ∈ ids k', i ∈ ids k) ∧ (ids k ≠ [] → ids k' ≠ [])) := by
  obtain ⟨lv, lp⟩ := l
  obtain ⟨mv, mp⟩ := m
  dsimp only at hl hm ⊢
  by_cases e : lv = mv
  · subst e
    rw [setVar_self]
    obtain ⟨r1, r2⟩ := sub_put_nil mp lp hm hl (fun e => hne (by rw [e])) (h.nodup lv)
    refine ⟨r1, ?_⟩
    rcases r2 with ⟨r2, r3, r4⟩ | r2
    · exact .inl ⟨r2, r3, rfl, r4⟩
    · exact .inr r2
  · rw [setVar_other _ _ e]
    exact ⟨fun hc => e (h.disj lv mv b.id (ids_sub hl (by simp [idsT])) (ids_sub hm (by simp [idsT, hc]))), .inr ⟨k, hl, fun i hi => hi, id⟩⟩

/-- The parent of a node. -/
theorem par_at (path : List Nat) : ∀ {q : Ptr} {t : AT α} {b : Info α} {k : AS α}, ParT q t → sub t path = some (b, k) →
    b.par = if path = [] then q else ptrT (sub t path.dropLast) := by
  induction path with
  | nil => intro q t b k h hs; rw [sub_nil] at hs; subst hs; exact h.1
  | cons p path ih =>
    intro q t b k h hs
    rcases t with _ | ⟨c, kc⟩
    · cases hs
    have hs : sub (slot kc p) path = some (b, k) := hs
    rw [if_neg (by simp), ih (par_slot h.2 p) hs]
    cases path with
    | nil => rfl
    | cons p' path => rfl

theorem par_siblings {T : Var → AT α} (h : Par T .nil) {l m : Loc} {b b2 : Info α} {k k2 : AS α} (hl : sub (T l.var) l.path = some (b, k))
    (hm : sub (T m.var) m.path = some (b2, k2)) (hs : Siblings l m) : b2.par = b.par := by
  rw [par_at _ (h.1 _) hl, par_at _ (h.1 _) hm]
  rcases hs with ⟨e1, e2⟩ | ⟨e1, e2, e3, e4⟩
  · rw [if_pos e1, if_pos e2]
  · rw [if_neg e1, if_neg e2, e3, e4]

/-! ### Childless nodes -/

theorem ids_nil_of {k : AS α} (h : ∀ q ∈ ptrs k, q = none) : ids k = [] := by
  rw [ids_toList, List.flatMap_eq_nil_iff]
  intro t ht
  have := ptrT_none.1 (h (ptrT t) (List.mem_map.2 ⟨t, ht, rfl⟩))
  rw [this]
  rfl

theorem parS_of_nil {k : AS α} (h : ids k = []) (q : Ptr) : ParS q k := by
  rw [parS_toList]
  intro t ht
  rw [ids_toList, List.flatMap_eq_nil_iff] at h
  have := h t ht
  rcases t with _ | ⟨b, k⟩
  · trivial
  · cases this

theorem Inv.node {s : St α} {T : Var → AT α} {L : AS α} (h : Inv s T L) (l : Loc) : Spec.node s l = ptrT (sub (T l.var) l.path) := by
  rw [Spec.node, h.root, follow_rep l.path (h.rep l.var)]

theorem Inv.childless {s : St α} {T : Var → AT α} {L : AS α} (h : Inv s T L) {l : Loc} {b : Info α} {k : AS α} (hl : sub (T l.var) l.path = some (b, k))
    (hc : Childless s (Spec.node s l)) : ids k = [] :=
  ids_nil_of (hc b.id _ (by rw [h.node, hl]; rfl) (h.at hl).1)

theorem Inv.childless_of {s : St α} {T : Var → AT α} {L : AS α} (h : Inv s T L) {l : Loc} {b : Info α} {k : AS α} (hl : sub (T l.var) l.path = some (b, k))
    (hk : ids k = []) : Childless s (Spec.node s l) := by
  intro i c hi hc q hq
  rw [h.node, hl] at hi
  cases hi
  rw [(h.at hl).1] at hc
  cases hc
  obtain ⟨t, ht, rfl⟩ := List.mem_map.1 hq
  rw [ids_toList, List.flatMap_eq_nil_iff] at hk
  have := hk t ht
  rcases t with _ | ⟨b, k⟩
  · rfl
  · cases this

theorem Inv.node_some {s : St α} {T : Var → AT α} {L : AS α} (h : Inv s T L) {l : Loc} {b : Info α} {k : AS α} (hl : sub (T l.var) l.path = some (b, k)) :
    ¬ Spec.node s l = none := by rw [h.node, hl]; exact fun hc => by cases hc

/-- A child that does not come back is lost. -/
theorem lost_kid {s s' : St α} {T : Var → AT α} {L L' : AS α} (h : Inv s T L) {v : Var} {path : List Nat} {b b' : Info α} {k k' : AS α}
    (hs : sub (T v) path = some (b, k)) (hid : b'.id = b.id) {i : Nat} (hi : i ∈ ids k) (hk : i ∉ ids k') (hL : i ∉ ids L') (hlive : ∃ c, s'.mem i = some c) :
    Lost s' (Spec.setVar T v (put (T v) path (some (b', k')))) L' i := by
  obtain ⟨rest, p1, p2⟩ := put_perm path hs
  have hv := p1.nodup_iff.1 (h.nodup v)
  obtain ⟨v1, -, v3⟩ := List.nodup_append.1 hv
  obtain ⟨v4, -⟩ := List.nodup_cons.1 v1
  refine ⟨hlive, fun w => ?_, hL⟩
  by_cases e : w = v
  · subst e
    rw [setVar_self, (p2 _).mem_iff]
    simp only [idsT, hid, List.cons_append, List.mem_cons, List.mem_append, not_or]
    exact ⟨fun e => v4 (e ▸ hi), hk, fun hc => v3 i (by simp [idsT, hi]) i hc rfl⟩
  · rw [setVar_other _ _ e]
    exact fun hc => e (h.disj w v i hc (ids_sub hs (by simp [idsT, hi])))

/-! ### The statements -/

theorem step_swap {max : Nat} {dflt : α} {s : St α} {T : Var → AT α} (h : Inv s T .nil) (l m : Loc) :
    ∃ o s' T', StepOk max dflt s T (.swapValues l m) o s' T' := by
  cases hl : sub (T l.var) l.path with
  | none =>
    refine step_none h (on_none h hl _) ?_
    simp only [nspec, ← valsT_sub, hl, valsT_missing]
    rfl
  | some n =>
    obtain ⟨b, k⟩ := n
    have vb : valsT (some (b, k)) = some (b.val, vals k) := rfl
    cases hm : sub (T m.var) m.path with
    | none =>
      refine step_none h (e := missing (T m.var) m.path) ?_ ?_
      · simp only [nstep, on_some h hl, on_none h hm]
      · have e2 : valsT (none : AT α) = none := rfl
        simp only [nspec, ← valsT_sub, hl, hm, valsT_missing, vb, e2]
    | some n2 =>
      obtain ⟨b2, k2⟩ := n2
      have vb2 : valsT (some (b2, k2)) = some (b2.val, vals k2) := rfl
      have g1 := good_node h hm b.val k2 rfl fun t ht => .inr ht
      have hsub : ∃ b1 k1, sub (Spec.setVar T m.var (put (T m.var) m.path (some (⟨b2.id, b2.par, b.val⟩, k2))) l.var) l.path = some (b1, k1) ∧
          b1.id = b.id := by
        by_cases e : l.var = m.var
        · have := sub_put_id m.path (b' := ⟨b2.id, b2.par, b.val⟩) l.path hm rfl
          rw [e, setVar_self]
          rw [← e, hl, e] at this
          cases hx : sub (put (T m.var) m.path (some (⟨b2.id, b2.par, b.val⟩, k2))) l.path with
          | none => rw [hx] at this; cases this
          | some y =>
            obtain ⟨b1, k1⟩ := y
            rw [hx] at this
            exact ⟨b1, k1, rfl, by simpa using this⟩
        · exact ⟨b, k, by rw [setVar_other _ _ e]; exact hl, rfl⟩
      obtain ⟨b1, k1, hs1, hid⟩ := hsub
      have g2 := good_node g1.inv hs1 b2.val k1 rfl fun t ht => .inr ht
      have hc1 := (g1.inv.at hs1).1
      rw [hid] at hc1
      refine ⟨.unit, _, _, (g1.trans g2).step ?_ fun _ => ?_⟩
      · simp only [nstep, on_some h hl, on_some h hm, swapValues, cell_eq (h.at hl).1, cell_eq (h.at hm).1, change_eq (h.at hm).1, change_eq hc1, Res.bind_ok,
          hid]
      · simp only [nspec, ← valsT_sub, hl, hm, vb, vb2]
        rw [spec_some (b' := ⟨b2.id, b2.par, b.val⟩) (k' := k2) hm rfl]
        dsimp only
        rw [spec_some (b' := ⟨b1.id, b1.par, b2.val⟩) (k' := k1) hs1 rfl]

/-- The state after a copy assignment of nodes. -/
theorem step_assign {max : Nat} {dflt : α} {s : St α} {T : Var → AT α} (h : Inv s T .nil) (l m : Loc) (hsafe : Childless s (Spec.node s m) ∨ Below l m) :
    ∃ o s' T', StepOk max dflt s T (.assign l m) o s' T' := by
  cases hm : sub (T m.var) m.path with
  | none =>
    refine step_none h (on_none h hm _) ?_ (.inr (.inl (by rw [h.node, hm]; rfl)))
    simp only [nspec, ← valsT_sub, hm, valsT_missing]
    rfl
  | some n2 =>
    obtain ⟨b2, k2⟩ := n2
    have vb2 : valsT (some (b2, k2)) = some (b2.val, vals k2) := rfl
    cases hl : sub (T l.var) l.path with
    | none =>
      refine step_none h (e := missing (T l.var) l.path) ?_ ?_ (.inl (by rw [h.node, hl]; rfl))
      · simp only [nstep, on_some h hm, on_none h hl]
      · simp only [nspec, ← valsT_sub, hm, vb2]
        exact spec_none hl _
    | some n =>
      obtain ⟨b, k⟩ := n
      obtain ⟨cm, rm⟩ := h.at hm
      obtain ⟨cl, rl⟩ := h.at hl
      obtain ⟨n1, n2⟩ := h.node_nodup hl
      obtain ⟨-, n4⟩ := h.node_nodup hm
      have hsubset : ∀ i ∈ ids k2, i ∈ ids k := by
        rcases hsafe with hs | ⟨e, r, hr⟩
        · rw [h.childless hm hs]; intro i hi; cases hi
        · rw [← e, ← hr, sub_append, hl] at hm
          cases r with
          | nil => rw [sub_nil] at hm; cases hm; exact fun i hi => hi
          | cons p r =>
            have hm : sub (slot k p) r = some (b2, k2) := hm
            exact fun i hi => mem_ids.2 ⟨p, ids_sub hm (by simp [idsT, hi])⟩
      have hb : b.id ∉ ids k2 := fun hc => n1 (hsubset _ hc)
      have u : Upd s (s.set b.id ⟨b2.par, b2.val, ptrs k2⟩) b k .nil ⟨b.id, b2.par, b2.val⟩ k2 .nil := by
        refine ⟨rfl, set_self _ _ _, rep_congrS rm fun i hi => set_other _ _ fun e => hb (e ▸ hi), trivial, fun i hi _ _ _ => set_other _ _ hi, rfl,
          fun i hi => ?_, ?_, fun i hi => ?_⟩
        · rw [set_other _ _ (by have := h.node_lt hl; have : s.next ≤ i := hi; omega)]
          exact h.fresh i hi
        · simpa [ids] using n4
        · simp only [ids, List.append_nil] at hi
          exact .inl (hsubset i hi)
      refine ⟨.unit, s.set b.id ⟨b2.par, b2.val, ptrs k2⟩, Spec.setVar T l.var (put (T l.var) l.path (some (⟨b.id, b2.par, b2.val⟩, k2))), ?_, h.upd hl u, fun _ => ?_,
        fun ht hn => ?_, fun ht hp => ?_, fun i hi => hi.upd h hl u, fun hn => ?_⟩
      · simp only [nstep, on_some h hm, on_some h hl, assignNode, cell_eq cm, change_eq cl, Res.bind_ok]
      · simp only [nspec, ← valsT_sub, hm, vb2]
        exact spec_some hl rfl
      · have hkeep : ids k = [] ∨ (b2 = b ∧ k2 = k) := by
          rcases ht with ht | ht | rfl | ht
          · exact absurd ht (h.node_some hl)
          · exact absurd ht (h.node_some hm)
          · rw [hl] at hm; cases hm; exact .inr ⟨rfl, rfl⟩
          · exact .inl (h.childless hl ht)
        refine hn.upd hl rfl fun i c hi => ?_
        by_cases e : i = b.id
        · exact .inl e
        · rw [set_other _ _ e] at hi
          rcases hkeep with hk | ⟨-, hk⟩
          · exact .inr (.inr (.inr ⟨by rw [hk]; exact List.not_mem_nil, by simp [ids], c, hi⟩))
          · by_cases e' : i ∈ ids k
            · exact .inr (.inl (hk ▸ e'))
            · exact .inr (.inr (.inr ⟨e', by simp [ids], c, hi⟩))
      · have hpar : b2.par = b.par ∧ (ParS (some b.id) k → ParS (some b.id) k2) := by
          rcases ht with rfl | ⟨hc, hsib⟩
          · rw [hl] at hm; cases hm; exact ⟨rfl, id⟩
          · exact ⟨par_siblings hp hl hm hsib, fun _ => parS_of_nil (h.childless hm hc) _⟩
        exact hp.upd hl rfl hpar.1 fun hk _ => ⟨hpar.2 hk, trivial⟩
      · simp only [Tidy, not_or] at hn
        obtain ⟨-, -, hne, hch⟩ := hn
        have hk : ids k ≠ [] := fun hc => hch (h.childless_of hl hc)
        have hex : ∃ i ∈ ids k, i ∉ ids k2 := by
          by_cases hz : ids k2 = []
          · obtain ⟨i, hi⟩ := List.exists_mem_of_ne_nil _ hk
            exact ⟨i, hi, by rw [hz]; exact List.not_mem_nil⟩
          · rcases hsafe with hs | ⟨e, r, hr⟩
            · exact absurd (h.childless hm hs) hz
            · have hm' := hm
              rw [← e, ← hr, sub_append, hl] at hm'
              cases r with
              | nil =>
                obtain ⟨lv, lp⟩ := l
                obtain ⟨mv, mp⟩ := m
                simp only [List.append_nil] at hr e
                exact absurd (by rw [e, hr]) hne
              | cons p r =>
                have hm' : sub (slot k p) r = some (b2, k2) := hm'
                exact ⟨b2.id, mem_ids.2 ⟨p, ids_sub hm' (by simp [idsT])⟩, (h.node_nodup hm).1⟩
        obtain ⟨i, hi, hi2⟩ := hex
        obtain ⟨c, hc⟩ := repS_live rl hi
        have hne' : i ≠ b.id := fun e => n1 (e ▸ hi)
        exact ⟨i, lost_kid (b' := ⟨b.id, b2.par, b2.val⟩) h hl rfl hi hi2 List.not_mem_nil ⟨c, (set_other _ _ hne').trans hc⟩⟩

theorem set_set_comm (s : St α) {i j : Nat} (c d : Cell α) (h : i ≠ j) : (s.set i c).set j d = (s.set j d).set i c := by
  simp only [St.set]
  congr 1
  funext n
  by_cases e1 : n = j
  · subst e1
    simp [Ne.symm h]
  · simp [e1]

theorem set_set_same (s : St α) (i : Nat) (c d : Cell α) : (s.set i c).set i d = s.set i d := by
  simp only [St.set]
  congr 1
  funext n
  by_cases e1 : n = i <;> simp [e1]

theorem moveNode_same {s : St α} {i : Nat} {c : Cell α} (h : s.mem i = some c) : moveNode s i i = .ok (s.set i { c with kids := [] }) := by
  simp only [moveNode, cell_eq h, change_eq h, Res.bind_ok, change_eq (set_self _ _ _), cell_eq (set_self _ _ _), set_set_same]

theorem moveNode_ne {s : St α} {i j : Nat} {c d : Cell α} (hi : s.mem i = some c) (hj : s.mem j = some d) (h : i ≠ j) :
    moveNode s i j = .ok ((s.set j { d with kids := [] }).set i d) := by
  simp only [moveNode, cell_eq hj, change_eq hi, Res.bind_ok, change_eq (set_self _ _ _), set_set_same]
  have e : ∀ c', (s.set i c').mem j = some d := fun c' => by rw [set_other _ _ (Ne.symm h)]; exact hj
  simp only [cell_eq (e _), Res.bind_ok, change_eq (e _)]
  rw [set_set_comm _ _ _ h]

theorem step_moveAssign {max : Nat} {dflt : α} {s : St α} {T : Var → AT α} (h : Inv s T .nil) (l m : Loc) :
    ∃ o s' T', StepOk max dflt s T (.moveAssign l m) o s' T' := by
  cases hm : sub (T m.var) m.path with
  | none =>
    refine step_none h (on_none h hm _) ?_ (.inr (.inl (by rw [h.node, hm]; rfl)))
    simp only [nspec, ← valsT_sub, hm, valsT_missing]
    rfl
  | some n2 =>
    obtain ⟨b2, k2⟩ := n2
    have vb2 : valsT (some (b2, k2)) = some (b2.val, vals k2) := rfl
    cases hl : sub (T l.var) l.path with
    | none =>
      refine step_none h (e := missing (T l.var) l.path) ?_ ?_ (.inl (by rw [h.node, hl]; rfl))
      · simp only [nstep, on_some h hm, on_none h hl]
      · have e2 : valsT (none : AT α) = none := rfl
        simp only [nspec, ← valsT_sub, hm, hl, vb2, e2, valsT_missing]
    | some n =>
      obtain ⟨b, k⟩ := n
      obtain ⟨cm, rm⟩ := h.at hm
      obtain ⟨cl, rl⟩ := h.at hl
      obtain ⟨n1, n2⟩ := h.node_nodup hl
      obtain ⟨n3, n4⟩ := h.node_nodup hm
      -- the source without its children, which are on their way
      have hs1 : ∀ i, i ≠ b2.id → (s.set b2.id ⟨b2.par, b2.val, []⟩).mem i = s.mem i := fun i hi => set_other _ _ hi
      have u1 : Upd s (s.set b2.id ⟨b2.par, b2.val, []⟩) b2 k2 .nil b2 .nil k2 :=
        ⟨rfl, set_self _ _ _, trivial, rep_congrS rm fun i hi => set_other _ _ fun e => n3 (e ▸ hi), fun i hi _ _ _ => set_other _ _ hi, rfl,
          fun i hi => by
            rw [set_other _ _ (by have := h.node_lt hm; have : s.next ≤ i := hi; omega)]
            exact h.fresh i hi, by simpa [ids] using n4, fun i hi => .inl (by simpa [ids] using hi)⟩
      have i1 := h.upd hm u1
      have l1 : NoLeak s T .nil → NoLeak (s.set b2.id ⟨b2.par, b2.val, []⟩) (Spec.setVar T m.var (put (T m.var) m.path (some (b2, .nil)))) k2 :=
        fun hn => hn.upd hm rfl fun i c hi => by
          by_cases e : i = b2.id
          · exact .inl e
          · rw [set_other _ _ e] at hi
            by_cases e' : i ∈ ids k2
            · exact .inr (.inr (.inl e'))
            · exact .inr (.inr (.inr ⟨e', by simp [ids], c, hi⟩))
      have htidy : Tidy s (.moveAssign l m) → Childless s (Spec.node s l) ∧ (Below m l → l = m) := fun ht => by
        rcases ht with ht | ht | ht
        · exact absurd ht (h.node_some hl)
        · exact absurd ht (h.node_some hm)
        · exact ht
      by_cases hne : l = m
      · subst hne
        rw [hl] at hm
        cases hm
        refine ⟨.unit, s.set b2.id ⟨b2.par, b2.val, []⟩, Spec.setVar T l.var (put (T l.var) l.path (some (b2, .nil))), ?_, inv_forget i1 (fun _ _ => rfl) rfl rfl, fun hf => ?_,
          fun ht hn => ?_, fun _ hp => ?_, fun i hi => lost_forget (hi.upd h hl u1), fun hn => ?_⟩
        · simp only [nstep, on_some h hl, moveNode_same cl, Res.bind_ok]
        · exact absurd rfl hf
        · have := l1 hn
          rw [show k2 = ofList k2.toList from (ofList_toList k2).symm] at this
          intro i c hi
          rcases this i c hi with hx | hx
          · exact .inl hx
          · rw [ofList_toList, h.childless hl (htidy ht).1] at hx
            cases hx
        · exact hp.upd hl rfl rfl fun _ _ => ⟨trivial, trivial⟩
        · have hk : ids k2 ≠ [] := fun hc => hn (.inr (.inr ⟨h.childless_of hl hc, fun _ => rfl⟩))
          obtain ⟨i, hi⟩ := List.exists_mem_of_ne_nil _ hk
          obtain ⟨c, hc⟩ := repS_live rl hi
          have hne' : i ≠ b2.id := fun e => n1 (e ▸ hi)
          exact ⟨i, lost_kid h hl rfl hi List.not_mem_nil List.not_mem_nil ⟨c, by rw [set_other _ _ hne']; exact hc⟩⟩
      · obtain ⟨hid, hcase⟩ := h.sub_lift hl hm hne
        have hrun : nstep max dflt s (.moveAssign l m) =
            .ok (.unit, (s.set b2.id ⟨b2.par, b2.val, []⟩).set b.id ⟨b2.par, b2.val, ptrs k2⟩) := by
          simp only [nstep, on_some h hm, on_some h hl, moveNode_ne cl cm hid, Res.bind_ok]
        have hspec1 : nspec max (fun v => valsT (T v)) (.moveAssign l m) =
            (.unit, (Spec.onNode (fun v => valsT (Spec.setVar T m.var (put (T m.var) m.path (some (b2, .nil))) v)) l
              fun _ _ => (.unit, b2.val, vals k2)).2) := by
          have vb : valsT (some (b, k)) = some (b.val, vals k) := rfl
          simp only [nspec, ← valsT_sub, hm, hl, vb, vb2]
          rw [spec_some (b' := b2) (k' := .nil) hm rfl]
        rcases hcase with ⟨hnone, hin, hbelow⟩ | ⟨k', hsome, hk', hk''⟩
        · refine ⟨.unit, _, Spec.setVar T m.var (put (T m.var) m.path (some (b2, .nil))), hrun, inv_forget i1 (fun i hi => ?_) rfl rfl, fun _ => ?_, fun ht _ => ?_,
            fun ht hp => ?_, fun i hi => ?_, fun _ => ⟨b.id, ⟨_, set_self _ _ _⟩, fun v hv => i1.disjL v _ hv hin, by simp [ids]⟩⟩
          · exact set_other _ _ fun e => hi (e ▸ hin)
          · rw [hspec1, spec_none hnone]
          · exact absurd ((htidy ht).2 hbelow) hne
          · rcases ht with e | ⟨hc, -⟩
            · exact absurd e hne
            · rw [h.childless hm hc] at hin
              cases hin
          · have := hi.upd h hm u1
            obtain ⟨⟨c, hc⟩, r1, r2⟩ := this
            have hne' : i ≠ b.id := fun e => r2 (e ▸ hin)
            exact ⟨⟨c, by rw [set_other _ _ hne']; exact hc⟩, r1, List.not_mem_nil⟩
        · have hbl := (i1.kid_loose hsome).1
          have u2 : Upd (s.set b2.id ⟨b2.par, b2.val, []⟩) ((s.set b2.id ⟨b2.par, b2.val, []⟩).set b.id ⟨b2.par, b2.val, ptrs k2⟩) b k' k2
              ⟨b.id, b2.par, b2.val⟩ k2 .nil :=
            ⟨rfl, set_self _ _ _, rep_congrS i1.repL fun i hi => set_other _ _ fun e => hbl (e ▸ hi), trivial, fun i hi _ _ _ => set_other _ _ hi, rfl,
              fun i hi => by
                rw [set_other _ _ (by have := h.node_lt hl; have : s.next ≤ i := hi; omega)]
                exact i1.fresh i hi, by simpa [ids] using n4, fun i hi => .inr (.inl (by simpa [ids] using hi))⟩
          refine ⟨.unit, _, _, hrun, i1.upd hsome u2, fun _ => ?_, fun ht hn => ?_, fun ht hp => ?_, fun i hi => (hi.upd h hm u1).upd i1 hsome u2,
            fun hn => ?_⟩
          · rw [hspec1, spec_some (b' := ⟨b.id, b2.par, b2.val⟩) (k' := k2) hsome rfl]
          · have hk0 : ids k' = [] := by
              rw [List.eq_nil_iff_forall_not_mem]
              intro i hi
              have := hk' i hi
              rw [h.childless hl (htidy ht).1] at this
              cases this
            refine (l1 hn).upd hsome rfl fun i c hi => ?_
            by_cases e : i = b.id
            · exact .inl e
            · rw [set_other _ _ e] at hi
              by_cases e' : i ∈ ids k2
              · exact .inr (.inl e')
              · exact .inr (.inr (.inr ⟨by rw [hk0]; exact List.not_mem_nil, e', c, hi⟩))
          · rcases ht with e | ⟨hc, hsib⟩
            · exact absurd e hne
            · have hz := h.childless hm hc
              have hp1 : Par (Spec.setVar T m.var (put (T m.var) m.path (some (b2, .nil)))) k2 :=
                hp.upd hm rfl rfl fun _ _ => ⟨trivial, parS_of_nil hz _⟩
              have hq : b2.par = b.par := par_siblings hp hl hm hsib
              exact hp1.upd hsome rfl hq fun _ _ => ⟨parS_of_nil hz _, trivial⟩
          · -- either the destination had children, or it was below the source
            have hor : ids k ≠ [] := fun hz => hn (.inr (.inr ⟨h.childless_of hl hz, fun hbel => by
              obtain ⟨e, r, hr⟩ := hbel
              have hl' := hl
              rw [← e, ← hr, sub_append, hm] at hl'
              cases r with
              | nil =>
                obtain ⟨lv, lp⟩ := l
                obtain ⟨mv, mp⟩ := m
                simp only [List.append_nil] at hr e
                rw [e, hr]
              | cons p r =>
                have hl' : sub (slot k2 p) r = some (b, k) := hl'
                exact absurd (mem_ids.2 ⟨p, ids_sub hl' (by simp [idsT])⟩) hbl⟩))
            obtain ⟨i, hi⟩ := List.exists_mem_of_ne_nil _ (hk'' hor)
            have hne' : i ≠ b.id := fun e => (i1.node_nodup hsome).1 (e ▸ hi)
            obtain ⟨c, hc⟩ := repS_live (i1.at hsome).2 hi
            exact ⟨i, lost_kid (b' := ⟨b.id, b2.par, b2.val⟩) i1 hsome rfl hi ((i1.kid_loose hsome).2 i hi) List.not_mem_nil ⟨c, (set_other _ _ hne').trans hc⟩⟩

theorem step_copy {max : Nat} {dflt : α} {s : St α} {T : Var → AT α} (h : Inv s T .nil) (k j : Nat) (hsafe : k = j ∨ Childless s (s.vars (.tree j))) :
    ∃ o s' T', StepOk max dflt s T (.copy k j) o s' T' := by
  cases hj : T (.tree j) with
  | none =>
    have hv : s.vars (.tree j) = none := by rw [h.root, hj]; rfl
    refine ⟨.unit, s, T, (Good.refl h).step ?_ (fun hf => ?_) (.inl hv)⟩
    · simp only [nstep, copyTree, hv, Res.bind_ok]
    · have hk : T (.tree k) = none := ptrT_none.1 (by rw [← h.root]; exact hf.2 hv)
      simp only [nspec, hj]
      congr 1
      funext w
      by_cases e : w = .tree k
      · subst e; rw [setVar_self, hk]
      · rw [setVar_other _ _ e]
  | some n =>
    obtain ⟨b, kj⟩ := n
    have hv : s.vars (.tree j) = some b.id := by rw [h.root, hj]; rfl
    have g1 := good_alloc h dflt
    have g2 := good_swap g1.inv (.tree k)
    have i2 := inv_forget g2.inv (fun _ _ => rfl) rfl rfl
    by_cases e : k = j
    · subst e
      refine ⟨.unit, _, _, ?_, i2, fun hf => absurd rfl hf.1, fun ht _ => ?_, fun _ hp => ?_, fun i hi => lost_forget (g2.lost i (g1.lost i hi)),
        fun _ => lost_loose g2.inv fun hc => by rw [hj] at hc; cases hc⟩
      · have hc : ((alloc s none dflt).setVar (.tree k) (some s.next)).mem s.next = some ⟨none, dflt, []⟩ := by
          show (alloc s none dflt).mem s.next = _
          rw [alloc_mem, if_pos rfl]
        have hx : ((alloc s none dflt).setVar (.tree k) (some s.next)).vars (.tree k) = some s.next := by simp [St.setVar]
        simp only [nstep, copyTree, hv, hx, assignNode, cell_eq hc, change_eq hc, set_same hc, Res.bind_ok]
        rfl
      · rcases ht with ht | ht <;> · rw [hv] at ht; cases ht
      · exact ⟨(g2.par (g1.par hp)).1, trivial⟩
    · have hne : Var.tree j ≠ .tree k := fun hc => e (by injection hc with hc; exact hc.symm)
      have hz : ids kj = [] := by
        rcases hsafe with hs | hs
        · exact absurd hs e
        · have : sub (T (.tree j)) [] = some (b, kj) := by rw [sub_nil]; exact hj
          exact ids_nil_of (hs b.id _ hv (h.at this).1)
      have hsub : sub (Spec.setVar T (.tree k) (fresh s none dflt) (.tree k)) [] = some (⟨s.next, none, dflt⟩, .nil) := by
        rw [setVar_self, sub_nil]; rfl
      have hsubj : sub (T (.tree j)) [] = some (b, kj) := by rw [sub_nil]; exact hj
      obtain ⟨cj, rj⟩ := h.at hsubj
      have hlt := h.node_lt hsubj
      have hcj : ((alloc s none dflt).setVar (.tree k) (some s.next)).mem b.id = some ⟨b.par, b.val, ptrs kj⟩ := by
        show (alloc s none dflt).mem b.id = _
        rw [alloc_mem, if_neg (by omega), cj]
      have hc : ((alloc s none dflt).setVar (.tree k) (some s.next)).mem s.next = some ⟨none, dflt, []⟩ := by
        show (alloc s none dflt).mem s.next = _
        rw [alloc_mem, if_pos rfl]
      have hrep : ∀ m : Nat → Option (Cell α), Rep m kj := fun m => rep_congrS rj fun i hi => by rw [hz] at hi; cases hi
      have u : Upd ((alloc s none dflt).setVar (.tree k) (some s.next)) (((alloc s none dflt).setVar (.tree k) (some s.next)).set s.next ⟨b.par, b.val, ptrs kj⟩)
          ⟨s.next, none, dflt⟩ .nil .nil ⟨s.next, b.par, b.val⟩ kj .nil :=
        ⟨rfl, set_self _ _ _, hrep _, trivial, fun i hi _ _ _ => set_other _ _ hi, rfl, fun i hi => by
          have hi : s.next + 1 ≤ i := hi
          rw [set_other _ _ (by show i ≠ s.next; omega)]
          exact i2.fresh i hi, by simp [ids, hz], fun i hi => by simp [ids, hz] at hi⟩
      refine ⟨.unit, _, _, ?_, i2.upd hsub u, fun _ => ?_, fun ht hn => ?_, fun _ hp => ?_, fun i hi => (lost_forget (g2.lost i (g1.lost i hi))).upd i2 hsub u, fun hn => ?_⟩
      · have hx : ((alloc s none dflt).setVar (.tree k) (some s.next)).vars (.tree j) = some b.id := by
          rw [setVar_vars, if_neg hne]; exact hv
        simp only [nstep, copyTree, hv, hx, assignNode, cell_eq hcj, change_eq hc, Res.bind_ok]
      · rw [setVar_setVar, put_nil, valsT_setVar]
        simp only [nspec, hj]
        rfl
      · have hk : T (.tree k) = none := by
          rcases ht with ht | ht
          · rw [hv] at ht; cases ht
          · exact ptrT_none.1 (by rw [← h.root]; exact ht)
        have l2 := g2.leak (g1.leak hn)
        rw [hk] at l2
        refine NoLeak.upd (L := .nil) l2 hsub rfl fun i c hi => ?_
        by_cases e : i = s.next
        · exact .inl e
        · rw [set_other _ _ e] at hi
          exact .inr (.inr (.inr ⟨by simp [ids], by simp [ids], c, hi⟩))
      · have p2 : Par (Spec.setVar T (.tree k) (fresh s none dflt)) .nil := ⟨(g2.par (g1.par hp)).1, trivial⟩
        have hb : b.par = none := by
          have := hp.1 (.tree j)
          rw [hj] at this
          exact this.1
        exact p2.upd hsub rfl hb fun _ _ => ⟨parS_of_nil hz _, trivial⟩
      · obtain ⟨i, hi⟩ := lost_loose g2.inv fun hc => hn (.inr (by rw [h.root, hc]; rfl))
        exact ⟨i, hi.upd i2 hsub u⟩

theorem nstep_ok {max : Nat} {dflt : α} {s : St α} {T : Var → AT α} (h : Inv s T .nil) {op : NOp α} (hsafe : Safe max s op) :
    ∃ o s' T', StepOk max dflt s T op o s' T' := by
  cases op with
  | addRoot k x => exact step_addRoot h k x
  | addChild l x => exact step_addChild h l x
  | insertFirstNull l x => exact step_firstNull h l x
  | insertAt l pos x => exact step_insertAt h l pos x
  | replaceAt l pos x u => exact step_replace h l pos x u hsafe
  | deleteChild l pos => exact step_delete h l pos
  | extractChild l pos u => exact step_extract h l pos u
  | setValue l x => exact step_setValue h l x
  | swapValues l m => exact step_swap h l m
  | clearNode l => exact step_clear h l
  | assign l m => exact step_assign h l m hsafe
  | moveAssign l m => exact step_moveAssign h l m
  | get l => exact step_get h l
  | childrenCount l => exact step_count h l
  | hasChild l pos => exact step_has h l pos
  | reset v => exact step_reset h v
  | copy k j => exact step_copy h k j hsafe
  | move k j => exact step_move h k j
  | moveUptr u g => exact step_moveUptr h u g

end Verif.NMem
