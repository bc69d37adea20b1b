import Verif.NMem.Inv

/-! Parts of statements that keep the invariant. -/

namespace Verif.NMem
open Nary (Slots Node)
open Spec
variable {α β : Type}

theorem Inv.node_nodup {s : St α} {T : Var → AT α} {L : AS α} (h : Inv s T L) {v : Var} {path : List Nat} {b : Info α} {k : AS α}
    (hs : sub (T v) path = some (b, k)) : b.id ∉ ids k ∧ (ids k).Nodup := List.nodup_cons.1 (nodup_sub hs (h.nodup v))

theorem Inv.node_lt {s : St α} {T : Var → AT α} {L : AS α} (h : Inv s T L) {v : Var} {path : List Nat} {b : Info α} {k : AS α}
    (hs : sub (T v) path = some (b, k)) : b.id < s.next := h.lt (h.at hs).1

theorem Inv.kid_lt {s : St α} {T : Var → AT α} {L : AS α} (h : Inv s T L) {v : Var} {path : List Nat} {b : Info α} {k : AS α}
    (hs : sub (T v) path = some (b, k)) {i : Nat} (hi : i ∈ ids k) : i < s.next := h.lt_ids (ids_sub hs (by simp [idsT, hi]))

theorem Inv.kid_loose {s : St α} {T : Var → AT α} {L : AS α} (h : Inv s T L) {v : Var} {path : List Nat} {b : Info α} {k : AS α}
    (hs : sub (T v) path = some (b, k)) : b.id ∉ ids L ∧ ∀ i ∈ ids k, i ∉ ids L :=
  ⟨h.disjL v _ (ids_sub hs (by simp [idsT])), fun i hi => h.disjL v i (ids_sub hs (by simp [idsT, hi]))⟩

/-- The node changes, but not the addresses of its children. -/
theorem good_node {s : St α} {T : Var → AT α} {L : AS α} (h : Inv s T L) {v : Var} {path : List Nat} {b : Info α} {k : AS α}
    (hs : sub (T v) path = some (b, k)) (x : α) (k' : AS α) (hid : ids k' = ids k) (hr : ∀ t ∈ k'.toList, t = none ∨ t ∈ k.toList) :
    Good s T L (s.set b.id ⟨b.par, x, ptrs k'⟩) (Spec.setVar T v (put (T v) path (some (⟨b.id, b.par, x⟩, k')))) L := by
  obtain ⟨hm, hk⟩ := h.at hs
  obtain ⟨n1, n2⟩ := h.node_nodup hs
  obtain ⟨n3, n4⟩ := h.kid_loose hs
  refine Good.of_upd h hs ⟨rfl, set_self _ _ _, ?_, ?_, fun i hi _ _ _ => set_other _ _ hi, rfl, fun i hi => ?_, ?_, ?_⟩ (fun hl => hl.upd hs rfl ?_)
    fun hp => hp.upd hs rfl rfl fun h1 h2 => ⟨?_, h2⟩
  · refine rep_congrS ((rep_toList k').2 fun t ht => ?_) fun i hi => set_other _ _ fun e => n1 (by rw [← hid, ← e]; exact hi)
    rcases hr t ht with rfl | ht
    · trivial
    · exact (rep_toList k).1 hk t ht
  · exact rep_congrS h.repL fun i hi => set_other _ _ fun e => n3 (e ▸ hi)
  · rw [set_other _ _ (fun e => by have := h.node_lt hs; have hi : s.next ≤ i := hi; omega)]
    exact h.fresh i hi
  · rw [hid]
    exact List.nodup_append.2 ⟨n2, h.nodupL, fun i hi j hj e => n4 i hi (e ▸ hj)⟩
  · intro i hi
    rw [hid] at hi
    rcases List.mem_append.1 hi with hi | hi
    · exact .inl hi
    · exact .inr (.inl hi)
  · intro i c hi
    by_cases e : i = b.id
    · exact .inl e
    · rw [set_other _ _ e] at hi
      by_cases e1 : i ∈ ids k
      · exact .inr (.inl (by rw [hid]; exact e1))
      · by_cases e2 : i ∈ ids L
        · exact .inr (.inr (.inl e2))
        · exact .inr (.inr (.inr ⟨e1, e2, c, hi⟩))
  · rw [parS_toList] at h1 ⊢
    intro t ht
    rcases hr t ht with rfl | ht
    · trivial
    · exact h1 t ht

theorem set_same {s : St α} {i : Nat} {c : Cell α} (h : s.mem i = some c) : s.set i c = s := by
  simp only [St.set]
  congr 1
  funext j
  by_cases e : j = i
  · rw [if_pos e, e, h]
  · rw [if_neg e]

theorem good_same {s : St α} {T : Var → AT α} {L : AS α} (h : Inv s T L) {v : Var} {path : List Nat} {b : Info α} {k : AS α}
    (hs : sub (T v) path = some (b, k)) : Good s T L s (Spec.setVar T v (put (T v) path (some (b, k)))) L := by
  have := good_node h hs b.val k rfl fun t ht => .inr ht
  rwa [set_same (h.at hs).1] at this

/-- A new node for a value, below `p`. -/
def fresh (s : St α) (p : Ptr) (x : α) : AT α := some (⟨s.next, p, x⟩, .nil)

theorem alloc_mem (s : St α) (p : Ptr) (x : α) (i : Nat) : (alloc s p x).mem i = if i = s.next then some ⟨p, x, []⟩ else s.mem i := rfl

/-- A new child. -/
theorem good_newKid {s : St α} {T : Var → AT α} {L : AS α} (h : Inv s T L) {v : Var} {path : List Nat} {b : Info α} {k : AS α}
    (hs : sub (T v) path = some (b, k)) (x : α) (l1 l2 : List (AT α)) (hid : (l1 ++ l2).flatMap idsT = ids k)
    (hr : ∀ t ∈ l1 ++ l2, t = none ∨ t ∈ k.toList) (ps : List Ptr) (hps : ps = ptrs (ofList (l1 ++ fresh s (some b.id) x :: l2))) :
    Good s T L ((alloc s (some b.id) x).set b.id ⟨b.par, b.val, ps⟩)
      (Spec.setVar T v (put (T v) path (some (b, ofList (l1 ++ fresh s (some b.id) x :: l2))))) L := by
  subst hps
  obtain ⟨hm, hk⟩ := h.at hs
  obtain ⟨n1, n2⟩ := h.node_nodup hs
  obtain ⟨n3, n4⟩ := h.kid_loose hs
  have hlt := h.node_lt hs
  have hne : s.next ≠ b.id := by omega
  have hperm : (ids (ofList (l1 ++ fresh s (some b.id) x :: l2))).Perm (s.next :: ids k) := by
    rw [ids_ofList, List.flatMap_append, List.flatMap_cons, ← hid, List.flatMap_append]
    exact List.perm_middle
  have hmem : ∀ i, i ∈ ids (ofList (l1 ++ fresh s (some b.id) x :: l2)) ↔ i = s.next ∨ i ∈ ids k := fun i => by
    rw [hperm.mem_iff, List.mem_cons]
  have hs' : ∀ i, i ≠ b.id → i < s.next → ((alloc s (some b.id) x).set b.id ⟨b.par, b.val, ptrs (ofList (l1 ++ fresh s (some b.id) x :: l2))⟩).mem i = s.mem i :=
    fun i hi hn => by rw [set_other _ _ hi, alloc_mem, if_neg (by omega)]
  have hold : ∀ t ∈ l1 ++ l2, RepT ((alloc s (some b.id) x).set b.id ⟨b.par, b.val, ptrs (ofList (l1 ++ fresh s (some b.id) x :: l2))⟩).mem t := by
    intro t ht
    rcases hr t ht with rfl | ht
    · trivial
    · refine rep_congr ((rep_toList k).1 hk t ht) fun i hi => ?_
      have hi : i ∈ ids k := by rw [ids_toList]; exact List.mem_flatMap.2 ⟨t, ht, hi⟩
      exact hs' i (fun e => n1 (e ▸ hi)) (h.kid_lt hs hi)
  refine Good.of_upd h hs ⟨rfl, set_self _ _ _, ?_, ?_, fun i hi _ _ hn => hs' i hi hn, rfl, fun i hi => ?_, ?_, ?_⟩ (fun hl => hl.upd hs rfl ?_)
    fun hp => hp.upd hs rfl rfl fun h1 h2 => ⟨?_, h2⟩
  · rw [rep_ofList]
    intro t ht
    simp only [List.mem_append, List.mem_cons] at ht
    rcases ht with ht | rfl | ht
    · exact hold t (List.mem_append_left _ ht)
    · refine ⟨?_, trivial⟩
      rw [set_other _ _ hne, alloc_mem, if_pos rfl]
      rfl
    · exact hold t (List.mem_append_right _ ht)
  · exact rep_congrS h.repL fun i hi => hs' i (fun e => n3 (e ▸ hi)) (h.lt_idsL hi)
  · have hi : s.next + 1 ≤ i := hi
    rw [set_other _ _ (by omega), alloc_mem, if_neg (by omega), h.fresh i (by omega)]
  · rw [(hperm.append_right _).nodup_iff]
    refine List.nodup_cons.2 ⟨fun hc => ?_, List.nodup_append.2 ⟨n2, h.nodupL, fun i hi j hj e => n4 i hi (e ▸ hj)⟩⟩
    rcases List.mem_append.1 hc with hc | hc
    · have := h.kid_lt hs hc; omega
    · have := h.lt_idsL hc; omega
  · intro i hi
    rcases List.mem_append.1 hi with hi | hi
    · rcases (hmem i).1 hi with rfl | hi
      · exact .inr (.inr (Nat.le_refl _))
      · exact .inl hi
    · exact .inr (.inl hi)
  · intro i c hi
    by_cases e : i = b.id
    · exact .inl e
    · rw [set_other _ _ e, alloc_mem] at hi
      by_cases e0 : i = s.next
      · exact .inr (.inl ((hmem i).2 (.inl e0)))
      · rw [if_neg e0] at hi
        by_cases e1 : i ∈ ids k
        · exact .inr (.inl ((hmem i).2 (.inr e1)))
        · by_cases e2 : i ∈ ids L
          · exact .inr (.inr (.inl e2))
          · exact .inr (.inr (.inr ⟨e1, e2, c, hi⟩))
  · rw [parS_ofList]
    rw [parS_toList] at h1
    intro t ht
    have : ∀ t ∈ l1 ++ l2, ParT (some b.id) t := fun t ht => by
      rcases hr t ht with rfl | ht
      · trivial
      · exact h1 t ht
    simp only [List.mem_append, List.mem_cons] at ht
    rcases ht with ht | rfl | ht
    · exact this t (List.mem_append_left _ ht)
    · exact ⟨rfl, trivial⟩
    · exact this t (List.mem_append_right _ ht)

/-- Some children are deleted. -/
theorem good_delete {s : St α} {T : Var → AT α} {L : AS α} (h : Inv s T L) {v : Var} {path : List Nat} {b : Info α} {k : AS α}
    (hs : sub (T v) path = some (b, k)) (k' : AS α) (d : List Nat) (hp : (ids k).Perm (d ++ ids k')) (hr : ∀ t ∈ k'.toList, t = none ∨ t ∈ k.toList)
    (ps : List Ptr) (hps : ps = ptrs k') :
    Good s T L ((without s d).set b.id ⟨b.par, b.val, ps⟩) (Spec.setVar T v (put (T v) path (some (b, k')))) L := by
  subst hps
  obtain ⟨hm, hk⟩ := h.at hs
  obtain ⟨n1, n2⟩ := h.node_nodup hs
  obtain ⟨n3, n4⟩ := h.kid_loose hs
  obtain ⟨n5, n6, n7⟩ := List.nodup_append.1 (hp.nodup_iff.1 n2)
  have hk' : ∀ i ∈ ids k', i ∈ ids k := fun i hi => hp.mem_iff.2 (List.mem_append_right _ hi)
  have hd : ∀ i ∈ d, i ∈ ids k := fun i hi => hp.mem_iff.2 (List.mem_append_left _ hi)
  have hs' : ∀ i, i ≠ b.id → i ∉ d → ((without s d).set b.id ⟨b.par, b.val, ptrs k'⟩).mem i = s.mem i := fun i hi hn => by
    rw [set_other _ _ hi]; simp only [without, if_neg hn]
  refine Good.of_upd h hs ⟨rfl, set_self _ _ _, ?_, ?_, fun i hi hn _ _ => hs' i hi fun hc => hn (hd i hc), rfl, fun i hi => ?_, ?_, ?_⟩ (fun hl => hl.upd hs rfl ?_)
    fun hp => hp.upd hs rfl rfl fun h1 h2 => ⟨?_, h2⟩
  · refine rep_congrS ((rep_toList k').2 fun t ht => ?_) fun i hi => hs' i (fun e => n1 (e ▸ hk' i hi)) fun hc => n7 i hc i hi rfl
    rcases hr t ht with rfl | ht
    · trivial
    · exact (rep_toList k).1 hk t ht
  · exact rep_congrS h.repL fun i hi => hs' i (fun e => n3 (e ▸ hi)) fun hc => n4 i (hd i hc) hi
  · have hi : s.next ≤ i := hi
    rw [hs' i (by have := h.node_lt hs; omega) (fun hc => by have := h.kid_lt hs (hd i hc); omega)]
    exact h.fresh i hi
  · exact List.nodup_append.2 ⟨n6, h.nodupL, fun i hi j hj e => n4 i (hk' i hi) (e ▸ hj)⟩
  · intro i hi
    rcases List.mem_append.1 hi with hi | hi
    · exact .inl (hk' i hi)
    · exact .inr (.inl hi)
  · intro i c hi
    by_cases e : i = b.id
    · exact .inl e
    · rw [set_other _ _ e] at hi
      simp only [without] at hi
      by_cases e0 : i ∈ d
      · rw [if_pos e0] at hi; cases hi
      · rw [if_neg e0] at hi
        by_cases e1 : i ∈ ids k
        · rcases List.mem_append.1 (hp.mem_iff.1 e1) with hc | hc
          · exact absurd hc e0
          · exact .inr (.inl hc)
        · by_cases e2 : i ∈ ids L
          · exact .inr (.inr (.inl e2))
          · exact .inr (.inr (.inr ⟨e1, e2, c, hi⟩))
  · rw [parS_toList] at h1 ⊢
    intro t ht
    rcases hr t ht with rfl | ht
    · trivial
    · exact h1 t ht

/-- A child is taken out. -/
theorem good_take {s : St α} {T : Var → AT α} (h : Inv s T .nil) {v : Var} {path : List Nat} {b b1 : Info α} {k k1 : AS α}
    (hs : sub (T v) path = some (b, k)) {pos : Nat} (hpos : slot k pos = some (b1, k1)) :
    Good s T .nil ((s.set b1.id ⟨none, b1.val, ptrs k1⟩).set b.id ⟨b.par, b.val, (ptrs k).set pos none⟩)
      (Spec.setVar T v (put (T v) path (some (b, ofList (k.toList.set pos none))))) (ofList [some (⟨b1.id, none, b1.val⟩, k1)]) := by
  obtain ⟨hm, hk⟩ := h.at hs
  obtain ⟨n1, n2⟩ := h.node_nodup hs
  obtain ⟨l1, l2, e1, e2, -⟩ := split_at (slot_some.1 hpos)
  have eset : k.toList.set pos none = l1 ++ none :: l2 := by rw [e1]; subst e2; simp
  have hperm : (ids k).Perm (ids (ofList (k.toList.set pos none)) ++ idsT (some (b1, k1))) := by
    rw [ids_ofList, eset, ids_toList, e1]
    simp only [List.flatMap_append, List.flatMap_cons, idsT, List.nil_append]
    rw [List.append_assoc]
    exact List.perm_append_comm.append_left _
  have hb1 : b1.id ∈ ids k := mem_ids.2 ⟨pos, by rw [hpos]; simp [idsT]⟩
  have hne : b1.id ≠ b.id := fun e => n1 (e ▸ hb1)
  have hnk := hperm.nodup_iff.1 n2
  obtain ⟨n3, n4, n5⟩ := List.nodup_append.1 hnk
  have hk' : ∀ i ∈ ids (ofList (k.toList.set pos none)), i ∈ ids k := fun i hi => hperm.mem_iff.2 (List.mem_append_left _ hi)
  have hs' : ∀ i, i ≠ b.id → i ≠ b1.id → ((s.set b1.id ⟨none, b1.val, ptrs k1⟩).set b.id ⟨b.par, b.val, (ptrs k).set pos none⟩).mem i = s.mem i :=
    fun i hi hn => by rw [set_other _ _ hi, set_other _ _ hn]
  have hL : ids (ofList [some (⟨b1.id, none, b1.val⟩, k1)] : AS α) = idsT (some (b1, k1)) := by
    rw [ids_ofList]; simp [idsT]
  have hr1 := rep_slot hk pos
  rw [hpos] at hr1
  refine Good.of_upd h hs ⟨rfl, ?_, ?_, ?_, fun i hi hn _ _ => hs' i hi fun e => hn (e ▸ hb1), rfl, fun i hi => ?_, ?_, ?_⟩ (fun hl => hl.upd hs rfl ?_)
    fun hp => hp.upd hs rfl rfl fun h1 h2 => ⟨?_, ?_⟩
  · rw [set_self, ptrs_ofList, List.map_set]; rfl
  · refine rep_congrS (rep_ofList.2 fun t ht => ?_) fun i hi => hs' i (fun e => n1 (e ▸ hk' i hi)) fun e => n5 i hi b1.id (by simp [idsT]) e
    rw [eset] at ht
    rw [rep_toList, e1] at hk
    simp only [List.mem_append, List.mem_cons] at ht hk
    rcases ht with ht | rfl | ht
    · exact hk t (.inl ht)
    · trivial
    · exact hk t (.inr (.inr ht))
  · rw [rep_ofList]
    intro t ht
    simp only [List.mem_singleton] at ht
    subst ht
    obtain ⟨m1, m2⟩ := List.nodup_cons.1 n4
    refine ⟨by rw [set_other _ _ hne, set_self], rep_congrS hr1.2 fun i hi => hs' i (fun e => ?_) (fun e => m1 (e ▸ hi))⟩
    exact n1 (e ▸ hperm.mem_iff.2 (List.mem_append_right _ (by simp [idsT, hi])))
  · have hi : s.next ≤ i := hi
    rw [hs' i (by have := h.node_lt hs; omega) (by have := h.kid_lt hs hb1; omega)]
    exact h.fresh i hi
  · rw [hL]; exact hnk
  · intro i hi
    rw [hL] at hi
    exact .inl (hperm.mem_iff.2 hi)
  · intro i c hi
    by_cases e : i = b.id
    · exact .inl e
    · by_cases e1 : i ∈ ids k
      · rcases List.mem_append.1 (hperm.mem_iff.1 e1) with hc | hc
        · exact .inr (.inl hc)
        · exact .inr (.inr (.inl (by rw [hL]; exact hc)))
      · rw [hs' i e fun hc => e1 (hc ▸ hb1)] at hi
        exact .inr (.inr (.inr ⟨e1, by simp [ids], c, hi⟩))
  · rw [parS_ofList, eset]
    rw [parS_toList, e1] at h1
    intro t ht
    simp only [List.mem_append, List.mem_cons] at ht h1
    rcases ht with ht | rfl | ht
    · exact h1 t (.inl ht)
    · trivial
    · exact h1 t (.inr (.inr ht))
  · rw [parS_ofList]
    intro t ht
    simp only [List.mem_singleton] at ht
    subst ht
    have := par_slot h1 pos
    rw [hpos] at this
    exact ⟨rfl, this.2⟩

/-! ### Variables -/

theorem ids_single (t : AT α) : ids (ofList [t]) = idsT t := by rw [ids_ofList]; simp

theorem setVar_vars (s : St α) (v w : Var) (p : Ptr) : (s.setVar v p).vars w = if w = v then p else s.vars w := rfl

/-- The loose tree is put into a variable; what was there becomes loose. -/
theorem good_swap {s : St α} {T : Var → AT α} {t : AT α} (h : Inv s T (ofList [t])) (v : Var) :
    Good s T (ofList [t]) (s.setVar v (ptrT t)) (Spec.setVar T v t) (ofList [T v]) := by
  have hn := h.nodupL
  have hd := h.disjL
  rw [ids_single] at hn
  simp only [ids_single] at hd
  have ht : RepT s.mem t := rep_ofList.1 h.repL t (by simp)
  refine ⟨⟨fun w => ?_, fun w => ?_, fun w => ?_, fun w x i hw hx => ?_, h.fresh, rep_ofList.2 fun t' ht' => ?_, ?_, fun w i hw => ?_⟩,
    fun hl => fun i c hi => ?_, fun hp => ⟨fun w => ?_, (parS_ofList _ _).2 fun t' ht' => ?_⟩, fun i hi => ?_⟩
  · by_cases e : w = v
    · subst e; rw [setVar_self]; exact ht
    · rw [setVar_other _ _ e]; exact h.rep w
  · rw [setVar_vars]
    by_cases e : w = v
    · subst e; rw [setVar_self, if_pos rfl]
    · rw [setVar_other _ _ e, if_neg e]; exact h.root w
  · by_cases e : w = v
    · subst e; rw [setVar_self]; exact hn
    · rw [setVar_other _ _ e]; exact h.nodup w
  · by_cases ew : w = v
    · by_cases ex : x = v
      · rw [ew, ex]
      · subst ew
        rw [setVar_self] at hw
        rw [setVar_other _ _ ex] at hx
        exact absurd hw (hd x i hx)
    · by_cases ex : x = v
      · subst ex
        rw [setVar_self] at hx
        rw [setVar_other _ _ ew] at hw
        exact absurd hx (hd w i hw)
      · rw [setVar_other _ _ ew] at hw
        rw [setVar_other _ _ ex] at hx
        exact h.disj w x i hw hx
  · simp only [List.mem_singleton] at ht'
    subst ht'; exact h.rep v
  · rw [ids_single]; exact h.nodup v
  · rw [ids_single]
    by_cases e : w = v
    · subst e
      rw [setVar_self] at hw
      exact fun hc => hd w i hc hw
    · rw [setVar_other _ _ e] at hw
      exact fun hc => e (h.disj w v i hw hc)
  · rcases hl i c hi with ⟨w, hw⟩ | hw
    · by_cases e : w = v
      · subst e
        exact .inr (by rw [ids_single]; exact hw)
      · exact .inl ⟨w, by rw [setVar_other _ _ e]; exact hw⟩
    · exact .inl ⟨v, by rw [setVar_self, ← ids_single]; exact hw⟩
  · have := (parS_ofList _ _).1 hp.2 t (by simp)
    by_cases e : w = v
    · subst e; rw [setVar_self]; exact this
    · rw [setVar_other _ _ e]; exact hp.1 w
  · simp only [List.mem_singleton] at ht'
    subst ht'; exact hp.1 v
  · obtain ⟨h1, h2, h3⟩ := hi
    rw [ids_single] at h3
    refine ⟨h1, fun w => ?_, by rw [ids_single]; exact h2 v⟩
    by_cases e : w = v
    · subst e; rw [setVar_self]; exact h3
    · rw [setVar_other _ _ e]; exact h2 w

/-- The loose slots are deleted. -/
theorem good_drop {s : St α} {T : Var → AT α} {L : AS α} (h : Inv s T L) : Good s T L (without s (ids L)) T .nil := by
  refine ⟨⟨fun v => rep_congr (h.rep v) fun i hi => ?_, h.root, h.nodup, h.disj, fun i hi => ?_, trivial, List.nodup_nil, fun _ _ _ => by simp [ids]⟩,
    fun hl i c hi => ?_, fun hp => ⟨hp.1, trivial⟩, fun i hi => ⟨?_, hi.2.1, by simp [ids]⟩⟩
  · simp only [without, if_neg (h.disjL v i hi)]
  · simp only [without]
    by_cases e : i ∈ ids L
    · rw [if_pos e]
    · rw [if_neg e]; exact h.fresh i hi
  · simp only [without] at hi
    by_cases e : i ∈ ids L
    · rw [if_pos e] at hi; cases hi
    · rw [if_neg e] at hi
      rcases hl i c hi with hv | hv
      · exact .inl hv
      · exact absurd hv e
  · simp only [without, if_neg hi.2.2]
    exact hi.1

theorem good_null {s : St α} {T : Var → AT α} (h : Inv s T .nil) : Good s T .nil s T (ofList [none]) :=
  ⟨⟨h.rep, h.root, h.nodup, h.disj, h.fresh, trivial, List.nodup_nil, h.disjL⟩, id, id, fun _ => id⟩

/-- The loose slots are forgotten, and their nodes may change. -/
theorem inv_forget {s s' : St α} {T : Var → AT α} {L : AS α} (h : Inv s T L) (hm : ∀ i, i ∉ ids L → s'.mem i = s.mem i) (hv : s'.vars = s.vars)
    (hn : s'.next = s.next) : Inv s' T .nil := by
  refine ⟨fun v => rep_congr (h.rep v) fun i hi => hm i (h.disjL v i hi), fun v => by rw [hv]; exact h.root v, h.nodup, h.disj, fun i hi => ?_, trivial,
    List.nodup_nil, fun _ _ _ => by simp [ids]⟩
  rw [hn] at hi
  rw [hm i fun hc => by have := h.lt_idsL hc; omega]
  exact h.fresh i hi

/-- A new node that is not in a variable yet. -/
theorem good_alloc {s : St α} {T : Var → AT α} (h : Inv s T .nil) (x : α) : Good s T .nil (alloc s none x) T (ofList [fresh s none x]) := by
  have hold : ∀ i, i < s.next → (alloc s none x).mem i = s.mem i := fun i hi => by rw [alloc_mem, if_neg (by omega)]
  have hids : ids (ofList [fresh s none x]) = [s.next] := rfl
  refine ⟨⟨fun v => rep_congr (h.rep v) fun i hi => hold i (h.lt_ids hi), h.root, h.nodup, h.disj, fun i hi => ?_, ?_, ?_, fun v i hi => ?_⟩,
    fun hl i c hi => ?_, fun hp => ⟨hp.1, rfl, trivial, trivial⟩, fun i hi => ?_⟩
  · have hi : s.next + 1 ≤ i := hi
    rw [alloc_mem, if_neg (by omega)]
    exact h.fresh i (by omega)
  · rw [rep_ofList]
    intro t ht
    simp only [List.mem_singleton] at ht
    subst ht
    exact ⟨by rw [alloc_mem, if_pos rfl]; rfl, trivial⟩
  · rw [hids]; simp
  · rw [hids, List.mem_singleton]
    have := h.lt_ids hi
    omega
  · rw [alloc_mem] at hi
    by_cases e : i = s.next
    · exact .inr (by rw [hids, e]; simp)
    · rw [if_neg e] at hi
      rcases hl i c hi with hv | hv
      · exact .inl hv
      · cases hv
  · obtain ⟨⟨c, hc⟩, h1, -⟩ := hi
    have hlt := h.lt hc
    exact ⟨⟨c, by rw [hold i hlt]; exact hc⟩, h1, by rw [hids, List.mem_singleton]; omega⟩

theorem Inv.delete_ok {s : St α} {T : Var → AT α} {L : AS α} (h : Inv s T L) : deleteAll (deleteNode s.fuel) s (ptrs L) = .ok (without s (ids L)) :=
  deleteAll_rep L h.repL h.nodupL (by
    have := length_le_of_nodup h.nodupL fun i hi => h.lt_idsL hi
    simp only [St.fuel]; omega)

/-- `store` of a loose tree in a `unique_ptr`. -/
theorem store_good {s : St α} {T : Var → AT α} {t : AT α} (h : Inv s T (ofList [t])) (n : Nat) :
    ∃ s', store s n (ptrT t) = .ok s' ∧ Good s T (ofList [t]) s' (Spec.setVar T (.uptr n) t) .nil := by
  have h1 := good_swap h (.uptr n)
  have h2 := good_drop h1.inv
  rw [ids_single] at h2
  refine ⟨_, ?_, h1.trans h2⟩
  rw [store, h.root (.uptr n)]
  have hl := length_le_of_nodup (h.nodup (.uptr n)) fun i hi => h.lt_ids hi
  exact deletePtr_rep (s := s.setVar (.uptr n) (ptrT t)) (h.rep (.uptr n)) (h.nodup _) (by simp only [St.fuel]; omega)

theorem reset_good {s : St α} {T : Var → AT α} (h : Inv s T .nil) (v : Var) :
    ∃ s', reset s v = .ok s' ∧ Good s T .nil s' (Spec.setVar T v none) .nil := by
  have h0 := good_null h
  have h1 := good_swap h0.inv v
  have h2 := good_drop h1.inv
  rw [ids_single] at h2
  refine ⟨_, ?_, h0.trans (h1.trans h2)⟩
  have hl := length_le_of_nodup (h.nodup v) fun i hi => h.lt_ids hi
  rw [reset, h.root v, deletePtr_rep (h.rep v) (h.nodup v) (by simp only [St.fuel]; omega)]
  rfl

end Verif.NMem
