import Verif.NMem.Good

/-! Every safe statement keeps the invariant and does what the specification says. -/

namespace Verif.NMem
open Nary (Slots Node)
open Spec
variable {α β : Type}

structure StepOk (max : Nat) (dflt : α) (s : St α) (T : Var → AT α) (op : NOp α) (o : NOut α) (s' : St α) (T' : Var → AT α) : Prop where
  run : nstep max dflt s op = .ok (o, s')
  inv : Inv s' T' .nil
  spec : Faithful s op → nspec max (fun v => valsT (T v)) op = (o, fun v => valsT (T' v))
  leak : Tidy s op → NoLeak s T .nil → NoLeak s' T' .nil
  par : Local s op → Par T .nil → Par T' .nil
  lost : ∀ i, Lost s T .nil i → Lost s' T' .nil i
  new : ¬ Tidy s op → ∃ i, Lost s' T' .nil i

theorem Good.step {max : Nat} {dflt : α} {s : St α} {T : Var → AT α} {op : NOp α} {o : NOut α} {s' : St α} {T' : Var → AT α}
    (h : Good s T .nil s' T' .nil) (hr : nstep max dflt s op = .ok (o, s'))
    (hs : Faithful s op → nspec max (fun v => valsT (T v)) op = (o, fun v => valsT (T' v)))
    (ht : Tidy s op := by trivial) : StepOk max dflt s T op o s' T' :=
  ⟨hr, h.inv, hs, fun _ => h.leak, fun _ => h.par, h.lost, fun hn => absurd ht hn⟩

theorem lost_forget {s : St α} {T : Var → AT α} {L : AS α} {i : Nat} (h : Lost s T L i) : Lost s T .nil i := ⟨h.1, h.2.1, by simp [ids]⟩

/-- What is loose and is forgotten, is lost. -/
theorem lost_loose {s : St α} {T : Var → AT α} {t : AT α} (h : Inv s T (ofList [t])) (ht : t ≠ none) : ∃ i, Lost s T .nil i := by
  rcases t with _ | ⟨b, k⟩
  · exact absurd rfl ht
  · have hb : b.id ∈ ids (ofList [some (b, k)]) := by rw [ids_single]; simp [idsT]
    exact ⟨b.id, repS_live h.repL hb, fun v hv => h.disjL v _ hv hb, by simp [ids]⟩

/-! ### Getting a node -/

theorem on_none {s : St α} {T : Var → AT α} {L : AS α} (h : Inv s T L) {l : Loc} (hs : sub (T l.var) l.path = none) (f : Nat → Res (NOut α × St α)) :
    NMem.onNode s l f = .ok (.thrown (missing (T l.var) l.path), s) := by
  simp only [NMem.onNode, h.root, resolve_rep l.path (h.rep l.var), hs]

theorem on_some {s : St α} {T : Var → AT α} {L : AS α} (h : Inv s T L) {l : Loc} {n : Node (Info α)} (hs : sub (T l.var) l.path = some n)
    (f : Nat → Res (NOut α × St α)) : NMem.onNode s l f = f n.1.id := by
  simp only [NMem.onNode, h.root, resolve_rep l.path (h.rep l.var), hs]

theorem spec_none {T : Var → AT α} {l : Loc} (hs : sub (T l.var) l.path = none) (f : α → Slots α → NOut α × α × Slots α) :
    Spec.onNode (fun v => valsT (T v)) l f = (.thrown (missing (T l.var) l.path), fun v => valsT (T v)) := by
  simp only [Spec.onNode, ← valsT_sub, hs, valsT_missing]
  rfl

theorem spec_some {T : Var → AT α} {l : Loc} {b b' : Info α} {k k' : AS α} (hs : sub (T l.var) l.path = some (b, k)) {f : α → Slots α → NOut α × α × Slots α}
    {o : NOut α} (hf : f b.val (vals k) = (o, b'.val, vals k')) :
    Spec.onNode (fun v => valsT (T v)) l f = (o, fun v => valsT (Spec.setVar T l.var (put (T l.var) l.path (some (b', k'))) v)) := by
  have : valsT (some (b, k)) = some (b.val, vals k) := rfl
  rw [valsT_setVar, valsT_put]
  simp only [Spec.onNode, ← valsT_sub, hs, this, hf]
  rfl

/-- A statement about a node that is not there. -/
theorem step_none {max : Nat} {dflt : α} {s : St α} {T : Var → AT α} (h : Inv s T .nil) {op : NOp α} {e : Exc}
    (hr : nstep max dflt s op = .ok (.thrown e, s)) (hs : nspec max (fun v => valsT (T v)) op = (.thrown e, fun v => valsT (T v)))
    (ht : Tidy s op := by trivial) : ∃ o s' T', StepOk max dflt s T op o s' T' := ⟨_, s, T, (Good.refl h).step hr (fun _ => hs) ht⟩

/-! ### Values and reading -/

theorem step_get {max : Nat} {dflt : α} {s : St α} {T : Var → AT α} (h : Inv s T .nil) (l : Loc) :
    ∃ o s' T', StepOk max dflt s T (.get l) o s' T' := by
  cases hs : sub (T l.var) l.path with
  | none => exact step_none h (on_none h hs _) (spec_none hs _)
  | some n =>
    obtain ⟨b, k⟩ := n
    refine ⟨_, s, _, (good_same h hs).step (o := .val b.val) ?_ fun _ => spec_some hs rfl⟩
    simp only [nstep, on_some h hs, cell_eq (h.at hs).1, Res.bind_ok]

theorem countP_ptrs (k : AS α) : (ptrs k).countP (·.isNone) = k.toList.countP (·.isNone) := by
  simp only [ptrs, List.countP_map]
  congr 1
  funext t
  cases t <;> rfl

theorem count_children (k : AS α) : (ptrs k).length - (ptrs k).countP (·.isNone) = (vals k).toList.countP (·.isSome) := by
  rw [countP_ptrs, length_ptrs, vals_toList, List.countP_map]
  have : k.toList.countP ((fun t => t.isSome) ∘ valsT) = k.toList.countP (fun t => !t.isNone) := by
    congr 1
    funext t
    cases t <;> rfl
  rw [this, List.length_eq_countP_add_countP (fun t : AT α => t.isNone), Nat.add_sub_cancel_left]
  congr 1
  funext t
  cases t <;> rfl

theorem step_count {max : Nat} {dflt : α} {s : St α} {T : Var → AT α} (h : Inv s T .nil) (l : Loc) :
    ∃ o s' T', StepOk max dflt s T (.childrenCount l) o s' T' := by
  cases hs : sub (T l.var) l.path with
  | none => exact step_none h (on_none h hs _) (spec_none hs _)
  | some n =>
    obtain ⟨b, k⟩ := n
    refine ⟨_, s, _, (good_same h hs).step (o := .num ((vals k).toList.countP (·.isSome))) ?_ fun _ => spec_some hs rfl⟩
    simp only [nstep, on_some h hs, cell_eq (h.at hs).1, Res.bind_ok, count_children]

theorem step_has {max : Nat} {dflt : α} {s : St α} {T : Var → AT α} (h : Inv s T .nil) (l : Loc) (pos : Nat) :
    ∃ o s' T', StepOk max dflt s T (.hasChild l pos) o s' T' := by
  cases hs : sub (T l.var) l.path with
  | none => exact step_none h (on_none h hs _) (spec_none hs _)
  | some n =>
    obtain ⟨b, k⟩ := n
    refine ⟨_, s, _, (good_same h hs).step (o := .bool (slot (vals k) pos).isSome) ?_ fun _ => spec_some hs rfl⟩
    simp only [nstep, on_some h hs, cell_eq (h.at hs).1, Res.bind_ok, ptrs_get, vals_slot, length_ptrs]
    have e : (ptrT (slot k pos)).isSome = (valsT (slot k pos)).isSome := by cases slot k pos <;> rfl
    rw [e]
    by_cases hp : pos < k.toList.length
    · simp [hp]
    · have : slot k pos = none := by simp [slot, List.getElem?_eq_none (by omega : k.toList.length ≤ pos)]
      simp [this, valsT]

theorem step_setValue {max : Nat} {dflt : α} {s : St α} {T : Var → AT α} (h : Inv s T .nil) (l : Loc) (x : α) :
    ∃ o s' T', StepOk max dflt s T (.setValue l x) o s' T' := by
  cases hs : sub (T l.var) l.path with
  | none => exact step_none h (on_none h hs _) (spec_none hs _)
  | some n =>
    obtain ⟨b, k⟩ := n
    refine ⟨_, _, _, (good_node h hs x k rfl fun t ht => .inr ht).step (o := .unit) ?_ fun _ => spec_some hs rfl⟩
    simp only [nstep, on_some h hs, setValue, change_eq (h.at hs).1, Res.bind_ok]

/-! ### New children -/

theorem step_addChild {max : Nat} {dflt : α} {s : St α} {T : Var → AT α} (h : Inv s T .nil) (l : Loc) (x : α) :
    ∃ o s' T', StepOk max dflt s T (.addChild l x) o s' T' := by
  cases hs : sub (T l.var) l.path with
  | none => exact step_none h (on_none h hs _) (spec_none hs _)
  | some n =>
    obtain ⟨b, k⟩ := n
    have hm := (h.at hs).1
    by_cases hl : k.toList.length < max
    · refine ⟨_, _, _, (good_newKid h hs x k.toList [] (by rw [List.append_nil, ids_toList]) (fun t ht => .inr (by simpa using ht)) (ptrs k ++ [some s.next])
        (by rw [ptrs_ofList, List.map_append]; rfl)).step (o := .bool true) ?_ fun _ => spec_some hs ?_⟩
      · have hne : b.id ≠ s.next := by have := h.node_lt hs; omega
        have hm' : (alloc s (some b.id) x).mem b.id = some ⟨b.par, b.val, ptrs k⟩ := by rw [alloc_mem, if_neg hne, hm]
        simp only [nstep, on_some h hs, addChild, cell_eq hm, Res.bind_ok, length_ptrs, hl, if_true, change_eq hm']
      · simp only [vals_toList, List.length_map, hl, if_true, vals_ofList, List.map_append]
        rfl
    · refine ⟨_, _, _, (good_same h hs).step (o := .bool false) ?_ fun _ => spec_some hs ?_⟩
      · simp only [nstep, on_some h hs, addChild, cell_eq hm, Res.bind_ok, length_ptrs, hl, if_false]
      · simp only [vals_toList, List.length_map, hl, if_false]

theorem flatMap_without {l : List (AT α)} {p : Nat} (h : l[p]? = some none) : (l.take p ++ l.drop (p + 1)).flatMap idsT = l.flatMap idsT := by
  obtain ⟨hp, e⟩ := List.getElem?_eq_some_iff.1 h
  conv_rhs => rw [← List.take_append_drop p l, List.drop_eq_getElem_cons hp, e]
  simp [List.flatMap_append, idsT]

theorem set_split {γ : Type} {l : List γ} {p : Nat} (h : p < l.length) (x : γ) : l.set p x = l.take p ++ x :: l.drop (p + 1) := by
  rw [List.set_eq_take_append_cons_drop, if_pos h]

/-- A new child in a null slot. -/
theorem good_fill {s : St α} {T : Var → AT α} {L : AS α} (h : Inv s T L) {v : Var} {path : List Nat} {b : Info α} {k : AS α}
    (hs : sub (T v) path = some (b, k)) (x : α) {pos : Nat} (hp : k.toList[pos]? = some none) :
    Good s T L ((alloc s (some b.id) x).set b.id ⟨b.par, b.val, (ptrs k).set pos (some s.next)⟩)
      (Spec.setVar T v (put (T v) path (some (b, ofList (k.toList.set pos (fresh s (some b.id) x)))))) L := by
  obtain ⟨hlt, -⟩ := List.getElem?_eq_some_iff.1 hp
  have e := set_split hlt (fresh s (some b.id) x)
  have := good_newKid h hs x (k.toList.take pos) (k.toList.drop (pos + 1)) (by rw [flatMap_without hp, ids_toList])
    (fun t ht => .inr (by
      rcases List.mem_append.1 ht with ht | ht
      · exact List.mem_of_mem_take ht
      · exact List.mem_of_mem_drop ht)) ((ptrs k).set pos (some s.next)) (by rw [← e, ptrs_ofList, List.map_set]; rfl)
  rwa [← e] at this

theorem findIdx_ptrs (k : AS α) : (ptrs k).findIdx (·.isNone) = k.toList.findIdx (·.isNone) := by
  simp only [ptrs, List.findIdx_map]
  congr 1
  funext t
  cases t <;> rfl

theorem findIdx_vals (k : AS α) : (vals k).toList.findIdx (·.isNone) = k.toList.findIdx (·.isNone) := by
  rw [vals_toList, List.findIdx_map]
  congr 1
  funext t
  cases t <;> rfl

theorem step_firstNull {max : Nat} {dflt : α} {s : St α} {T : Var → AT α} (h : Inv s T .nil) (l : Loc) (x : α) :
    ∃ o s' T', StepOk max dflt s T (.insertFirstNull l x) o s' T' := by
  cases hs : sub (T l.var) l.path with
  | none => exact step_none h (on_none h hs _) (spec_none hs _)
  | some n =>
    obtain ⟨b, k⟩ := n
    have hm := (h.at hs).1
    by_cases hf : k.toList.findIdx (·.isNone) < k.toList.length
    · have hnone : k.toList[k.toList.findIdx (·.isNone)]? = some none := by
        rw [List.getElem?_eq_getElem hf]
        have := List.findIdx_getElem (w := hf)
        cases hc : k.toList[k.toList.findIdx (·.isNone)] with
        | none => rfl
        | some t => rw [hc] at this; cases this
      refine ⟨_, _, _, (good_fill h hs x hnone).step (o := .bool true) ?_ fun _ => spec_some hs ?_⟩
      · have hne : b.id ≠ s.next := by have := h.node_lt hs; omega
        have hm' : (alloc s (some b.id) x).mem b.id = some ⟨b.par, b.val, ptrs k⟩ := by rw [alloc_mem, if_neg hne, hm]
        simp only [nstep, on_some h hs, insertFirstNull, cell_eq hm, Res.bind_ok, length_ptrs, findIdx_ptrs, hf, if_true, change_eq hm']
      · simp only [findIdx_vals]
        simp only [vals_toList, List.length_map, hf, if_true, vals_ofList, List.map_set]
        rfl
    · obtain ⟨o, s', T', hok⟩ := step_addChild (max := max) (dflt := dflt) h l x
      have e1 : nstep max dflt s (.insertFirstNull l x) = nstep max dflt s (.addChild l x) := by
        simp only [nstep, on_some h hs, insertFirstNull, cell_eq hm, Res.bind_ok, length_ptrs, findIdx_ptrs, hf, if_false]
      have e2 : nspec max (fun v => valsT (T v)) (.insertFirstNull l x) = nspec max (fun v => valsT (T v)) (.addChild l x) := by
        have : valsT (some (b, k)) = some (b.val, vals k) := rfl
        have hf' : ¬ (vals k).toList.findIdx (·.isNone) < (vals k).toList.length := by rw [findIdx_vals, vals_toList, List.length_map]; exact hf
        simp only [nspec, Spec.onNode, ← valsT_sub, hs, this, hf', if_false]
      exact ⟨o, s', T', by rw [e1]; exact hok.run, hok.inv, fun _ => by rw [e2]; exact hok.spec trivial, fun _ => hok.leak trivial, fun _ => hok.par trivial, hok.lost, fun hn => absurd trivial hn⟩

/-- The slots with null slots up to `n`. -/
def pad (k : AS α) (n : Nat) : AS α := ofList (k.toList ++ List.replicate (n - k.toList.length) none)

theorem flatMap_replicate_none (n : Nat) : (List.replicate n (none : AT α)).flatMap idsT = [] := by
  induction n with
  | zero => rfl
  | succ n ih => rw [List.replicate_succ, List.flatMap_cons, ih]; rfl

theorem ids_pad (k : AS α) (n : Nat) : ids (pad k n) = ids k := by
  rw [pad, ids_ofList, List.flatMap_append, ids_toList, flatMap_replicate_none, List.append_nil]

theorem ptrs_pad {k : AS α} {n : Nat} (h : k.toList.length ≤ n) : ptrs (pad k n) = resize (ptrs k) n := by
  rw [pad, ptrs_ofList, resize, List.map_append, List.take_of_length_le (by rw [length_ptrs]; exact h), length_ptrs]
  simp [ptrs, ptrT]

theorem pad_get {k : AS α} {pos : Nat} (h : k.toList.length ≤ pos) : (pad k (pos + 1)).toList[pos]? = some none := by
  rw [pad, toList_ofList, List.getElem?_append_right h, List.getElem?_replicate, if_pos (by omega)]

theorem good_pad {s : St α} {T : Var → AT α} {L : AS α} (h : Inv s T L) {v : Var} {path : List Nat} {b : Info α} {k : AS α}
    (hs : sub (T v) path = some (b, k)) (n : Nat) :
    Good s T L (s.set b.id ⟨b.par, b.val, ptrs (pad k n)⟩) (Spec.setVar T v (put (T v) path (some (b, pad k n)))) L :=
  good_node h hs b.val (pad k n) (ids_pad k n) fun t ht => by
    rw [pad, toList_ofList] at ht
    rcases List.mem_append.1 ht with ht | ht
    · exact .inr ht
    · exact .inl (List.eq_of_mem_replicate ht)

theorem vals_fill {k : AS α} {pos : Nat} (s : St α) (p : Ptr) (x : α) :
    vals (ofList ((pad k (pos + 1)).toList.set pos (fresh s p x))) = ofList (setSlot (vals k).toList pos (some (x, .nil))) := by
  rw [vals_ofList, pad, toList_ofList, setSlot, vals_toList, List.map_set, List.map_append, List.map_replicate, List.length_map]
  rfl

theorem fill_short {k : AS α} {pos : Nat} (h : pos < k.toList.length) : pad k (pos + 1) = k := by
  rw [pad, show pos + 1 - k.toList.length = 0 by omega, List.replicate_zero, List.append_nil, ofList_toList]

/-- Grow, then fill. -/
theorem good_grow_fill {s : St α} {T : Var → AT α} {L : AS α} (h : Inv s T L) {v : Var} {path : List Nat} {b : Info α} {k : AS α}
    (hs : sub (T v) path = some (b, k)) (x : α) {pos : Nat} (hp : k.toList.length ≤ pos) :
    Good s T L (((alloc (s.set b.id ⟨b.par, b.val, resize (ptrs k) (pos + 1)⟩) (some b.id) x)).set b.id
        ⟨b.par, b.val, (resize (ptrs k) (pos + 1)).set pos (some s.next)⟩)
      (Spec.setVar T v (put (T v) path (some (b, ofList ((pad k (pos + 1)).toList.set pos (fresh s (some b.id) x)))))) L := by
  have h1 := good_pad h hs (pos + 1)
  rw [ptrs_pad (by omega)] at h1
  have hs1 : sub (Spec.setVar T v (put (T v) path (some (b, pad k (pos + 1)))) v) path = some (b, pad k (pos + 1)) := by
    rw [setVar_self, sub_put path hs]
  have h2 := good_fill h1.inv hs1 x (pad_get hp)
  rw [setVar_self, setVar_setVar, put_put, ptrs_pad (by omega)] at h2
  exact h1.trans h2

theorem step_insertAt {max : Nat} {dflt : α} {s : St α} {T : Var → AT α} (h : Inv s T .nil) (l : Loc) (pos : Nat) (x : α) :
    ∃ o s' T', StepOk max dflt s T (.insertAt l pos x) o s' T' := by
  cases hs : sub (T l.var) l.path with
  | none => exact step_none h (on_none h hs _) (spec_none hs _)
  | some n =>
    obtain ⟨b, k⟩ := n
    have hm := (h.at hs).1
    have hne : b.id ≠ s.next := by have := h.node_lt hs; omega
    by_cases hmax : pos < max
    · by_cases hp : pos < k.toList.length
      · by_cases hn : k.toList[pos]? = some none
        · refine ⟨_, _, _, (good_fill h hs x hn).step (o := .bool true) ?_ fun _ => spec_some hs ?_⟩
          · have hm' : (alloc s (some b.id) x).mem b.id = some ⟨b.par, b.val, ptrs k⟩ := by rw [alloc_mem, if_neg hne, hm]
            have hg : (ptrs k)[pos]? = some none := by simp only [ptrs, List.getElem?_map, hn]; rfl
            simp only [nstep, on_some h hs, insertAt, cell_eq hm, Res.bind_ok, length_ptrs, hmax, hp, hg, if_true, change_eq hm']
          · have : slot (vals k) pos = none := by rw [vals_slot]; simp [slot, hn, valsT]
            simp only [hmax, this, and_self, if_true]
            rw [← vals_fill s (some b.id) x, fill_short hp]
        · refine ⟨_, _, _, (good_same h hs).step (o := .bool false) ?_ fun _ => spec_some hs ?_⟩
          · have hg : ¬ (ptrs k)[pos]? = some none := fun hc => hn (by
              simp only [ptrs, List.getElem?_map, List.getElem?_eq_getElem hp, Option.map_some, Option.some.injEq, ptrT_none] at hc
              rw [List.getElem?_eq_getElem hp, hc])
            simp only [nstep, on_some h hs, insertAt, cell_eq hm, Res.bind_ok, length_ptrs, hmax, hp, hg, if_true, if_false]
          · have : ¬ slot (vals k) pos = none := fun hc => hn (by
              rw [vals_slot, valsT_none, slot, List.getElem?_eq_getElem hp] at hc
              rw [List.getElem?_eq_getElem hp]
              simpa using hc)
            simp only [this, and_false, if_false]
      · refine ⟨_, _, _, (good_grow_fill h hs x (by omega : k.toList.length ≤ pos)).step (o := .bool true) ?_ fun _ => spec_some hs ?_⟩
        · have hm' : (alloc (s.set b.id ⟨b.par, b.val, resize (ptrs k) (pos + 1)⟩) (some b.id) x).mem b.id =
              some ⟨b.par, b.val, resize (ptrs k) (pos + 1)⟩ := by
            rw [alloc_mem]
            rw [if_neg (show b.id ≠ (s.set b.id _).next from hne), set_self]
          simp only [nstep, on_some h hs, insertAt, cell_eq hm, Res.bind_ok, length_ptrs, hmax, hp, if_true, if_false, change_eq hm, change_eq hm']
          rfl
        · have : slot (vals k) pos = none := by
            rw [vals_slot, slot, List.getElem?_eq_none (by omega)]; rfl
          simp only [hmax, this, and_self, if_true]
          rw [vals_fill]
    · refine ⟨_, _, _, (good_same h hs).step (o := .bool false) ?_ fun _ => spec_some hs ?_⟩
      · simp only [nstep, on_some h hs, insertAt, cell_eq hm, Res.bind_ok, hmax, if_false]
      · simp only [hmax, false_and, if_false]

/-! ### Deleting and taking out -/

theorem step_clear {max : Nat} {dflt : α} {s : St α} {T : Var → AT α} (h : Inv s T .nil) (l : Loc) :
    ∃ o s' T', StepOk max dflt s T (.clearNode l) o s' T' := by
  cases hs : sub (T l.var) l.path with
  | none => exact step_none h (on_none h hs _) (spec_none hs _)
  | some n =>
    obtain ⟨b, k⟩ := n
    obtain ⟨hm, hk⟩ := h.at hs
    obtain ⟨n1, n2⟩ := h.node_nodup hs
    refine ⟨_, _, _, (good_delete h hs .nil (ids k) (by simp [ids]) (fun t ht => by cases ht) [] rfl).step (o := .unit) ?_ fun _ => spec_some hs rfl⟩
    have hl := length_le_of_nodup n2 fun i hi => h.kid_lt hs hi
    have hm' : (without s (ids k)).mem b.id = some ⟨b.par, b.val, ptrs k⟩ := by simp only [without, if_neg n1, hm]
    simp only [nstep, on_some h hs, clearNode, cell_eq hm, Res.bind_ok, deleteAll_rep k hk n2 (show (ids k).length ≤ s.fuel by simp only [St.fuel]; omega),
      change_eq hm']

theorem step_delete {max : Nat} {dflt : α} {s : St α} {T : Var → AT α} (h : Inv s T .nil) (l : Loc) (pos : Nat) :
    ∃ o s' T', StepOk max dflt s T (.deleteChild l pos) o s' T' := by
  cases hs : sub (T l.var) l.path with
  | none => exact step_none h (on_none h hs _) (spec_none hs _)
  | some n =>
    obtain ⟨b, k⟩ := n
    obtain ⟨hm, hk⟩ := h.at hs
    obtain ⟨n1, n2⟩ := h.node_nodup hs
    by_cases hp : pos < k.toList.length
    · have hslot : k.toList[pos]? = some (slot k pos) := by simp [slot, List.getElem?_eq_getElem hp]
      obtain ⟨l1, l2, e1, e2, -⟩ := split_at hslot
      have herase : k.toList.eraseIdx pos = l1 ++ l2 := by rw [e1]; subst e2; simp [List.eraseIdx_append_of_length_le]
      have hperm : (ids k).Perm (idsT (slot k pos) ++ ids (ofList (k.toList.eraseIdx pos))) := by
        rw [ids_ofList, herase, ids_toList, e1]
        simp only [List.flatMap_append, List.flatMap_cons]
        refine List.Perm.trans List.perm_append_comm ?_
        rw [List.append_assoc]
        exact (List.perm_append_comm).append_left _
      refine ⟨_, _, _, (good_delete h hs (ofList (k.toList.eraseIdx pos)) (idsT (slot k pos)) hperm
        (fun t ht => .inr (List.mem_of_mem_eraseIdx (by rwa [toList_ofList] at ht))) ((ptrs k).eraseIdx pos)
        (by simp only [ptrs, toList_ofList, List.eraseIdx_map])).step (o := .bool true) ?_ fun _ => spec_some hs ?_⟩
      · have hd : b.id ∉ idsT (slot k pos) := fun hc => n1 (mem_ids.2 ⟨pos, hc⟩)
        have hl := length_le_of_nodup (nodup_slot n2 pos) fun i hi => h.kid_lt hs (mem_ids.2 ⟨pos, hi⟩)
        have hm' : (without s (idsT (slot k pos))).mem b.id = some ⟨b.par, b.val, ptrs k⟩ := by simp only [without, if_neg hd, hm]
        have hg : (ptrs k)[pos]? = some (ptrT (slot k pos)) := by simp only [ptrs, List.getElem?_map, hslot]; rfl
        simp only [nstep, on_some h hs, deleteChild, cell_eq hm, Res.bind_ok, hg,
          deletePtr_rep (rep_slot hk pos) (nodup_slot n2 pos) (show (idsT (slot k pos)).length ≤ s.fuel by simp only [St.fuel]; omega), change_eq hm']
      · simp only [vals_toList, List.length_map, hp, decide_true, vals_ofList, List.eraseIdx_map]
    · refine ⟨_, _, _, (good_same h hs).step (o := .bool false) ?_ fun _ => spec_some hs ?_⟩
      · have hg : (ptrs k)[pos]? = none := by rw [List.getElem?_eq_none]; rw [length_ptrs]; omega
        simp only [nstep, on_some h hs, deleteChild, cell_eq hm, Res.bind_ok, hg]
      · have : (vals k).toList.eraseIdx pos = (vals k).toList := List.eraseIdx_of_length_le (by rw [vals_toList, List.length_map]; omega)
        simp only [this, ofList_toList]
        simp only [vals_toList, List.length_map, hp, decide_false]

/-- Taking a child out of a slot, null or not, but not outside. -/
theorem take_good {s : St α} {T : Var → AT α} (h : Inv s T .nil) {v : Var} {path : List Nat} {b : Info α} {k : AS α}
    (hs : sub (T v) path = some (b, k)) (pos : Nat) :
    ∃ s' t, takeChild s b.id pos = .ok (ptrT t, s') ∧
      Good s T .nil s' (Spec.setVar T v (put (T v) path (some (b, ofList (k.toList.set pos none))))) (ofList [t]) ∧ valsT t = valsT (slot k pos) := by
  obtain ⟨hm, hk⟩ := h.at hs
  obtain ⟨n1, n2⟩ := h.node_nodup hs
  cases hp : slot k pos with
  | some n =>
    obtain ⟨b1, k1⟩ := n
    refine ⟨_, some (⟨b1.id, none, b1.val⟩, k1), ?_, good_take h hs hp, rfl⟩
    have hg : (ptrs k)[pos]? = some (some b1.id) := by simp only [ptrs, List.getElem?_map, slot_some.1 hp]; rfl
    have hr := rep_slot hk pos
    rw [hp] at hr
    have hne : b.id ≠ b1.id := fun e => n1 (mem_ids.2 ⟨pos, by rw [hp, e]; simp [idsT]⟩)
    have hm' : (s.set b1.id ⟨none, b1.val, ptrs k1⟩).mem b.id = some ⟨b.par, b.val, ptrs k⟩ := by rw [set_other _ _ hne, hm]
    simp only [takeChild, cell_eq hm, Res.bind_ok, hg, change_eq hr.1, change_eq hm']
    rfl
  | none =>
    have hset : k.toList.set pos none = k.toList := by
      apply List.ext_getElem?
      intro n
      rw [List.getElem?_set]
      by_cases e : pos = n
      · subst e
        by_cases hlt : pos < k.toList.length
        · simp only [hlt, if_true]
          simp only [slot, List.getElem?_eq_getElem hlt] at hp
          rw [List.getElem?_eq_getElem hlt]
          simpa using hp.symm
        · simp only [hlt, if_false, if_true]
          rw [List.getElem?_eq_none (by omega)]
      · simp only [e, if_false]
    refine ⟨s, none, ?_, ?_, rfl⟩
    · have hg : ∀ r, ¬ (ptrs k)[pos]? = some (some r) := fun r hc => by
        have := ptrs_get k pos
        rw [hc, hp] at this
        cases this
      simp only [takeChild, cell_eq hm, Res.bind_ok]
      cases hx : (ptrs k)[pos]? with
      | none => rfl
      | some p =>
        cases p with
        | none => rfl
        | some r => exact absurd hx (hg r)
    · rw [hset, ofList_toList]
      have h1 := good_same h hs
      exact h1.trans (good_null h1.inv)

theorem step_extract {max : Nat} {dflt : α} {s : St α} {T : Var → AT α} (h : Inv s T .nil) (l : Loc) (pos u : Nat) :
    ∃ o s' T', StepOk max dflt s T (.extractChild l pos u) o s' T' := by
  cases hs : sub (T l.var) l.path with
  | none =>
    refine step_none h (on_none h hs _) ?_
    simp only [nspec, ← valsT_sub, hs, valsT_missing]
    rfl
  | some n =>
    obtain ⟨b, k⟩ := n
    obtain ⟨s1, t, e1, g1, hv⟩ := take_good h hs pos
    obtain ⟨s2, e2, g2⟩ := store_good g1.inv u
    refine ⟨.bool (ptrT t).isSome, s2, _, (g1.trans g2).step ?_ fun _ => ?_⟩
    · simp only [nstep, on_some h hs, extractChild, e1, e2, Res.bind_ok]
    · have : valsT (some (b, k)) = some (b.val, vals k) := rfl
      rw [valsT_setVar, valsT_setVar, valsT_put]
      simp only [nspec, ← valsT_sub, hs, this, vals_slot, hv]
      have e3 : (ptrT t).isSome = (valsT (slot k pos)).isSome := by rw [← hv]; cases t <;> rfl
      have e4 : valsT (some (b, ofList (k.toList.set pos none))) = some (b.val, ofList ((vals k).toList.set pos none)) := by
        show some (b.val, vals (ofList (k.toList.set pos none))) = _
        rw [vals_ofList, vals_toList, List.map_set]; rfl
      rw [e3, e4]

theorem step_replace {max : Nat} {dflt : α} {s : St α} {T : Var → AT α} (h : Inv s T .nil) (l : Loc) (pos : Nat) (x : α) (u : Nat) (hmax : pos < max) :
    ∃ o s' T', StepOk max dflt s T (.replaceAt l pos x u) o s' T' := by
  cases hs : sub (T l.var) l.path with
  | none =>
    refine step_none h (on_none h hs _) ?_
    simp only [nspec, ← valsT_sub, hs, valsT_missing]
    rfl
  | some n =>
    obtain ⟨b, k⟩ := n
    obtain ⟨hm, hk⟩ := h.at hs
    have hne : b.id ≠ s.next := by have := h.node_lt hs; omega
    -- the replaced child and the node with the new one
    have key : ∃ s' t k', replaceAt max s b.id pos x = .ok (ptrT t, s') ∧
        Good s T .nil s' (Spec.setVar T l.var (put (T l.var) l.path (some (b, k')))) (ofList [t]) ∧ valsT t = valsT (slot k pos) ∧
        vals k' = ofList (setSlot (vals k).toList pos (some (x, .nil))) := by
      by_cases hp : pos < k.toList.length
      · obtain ⟨s1, t, e1, g1, hv⟩ := take_good h hs pos
        have hs1 : sub (Spec.setVar T l.var (put (T l.var) l.path (some (b, ofList (k.toList.set pos none)))) l.var) l.path =
            some (b, ofList (k.toList.set pos none)) := by rw [setVar_self, sub_put l.path hs]
        have hnone : (ofList (k.toList.set pos none) : AS α).toList[pos]? = some none := by
          rw [toList_ofList, List.getElem?_set, if_pos rfl, if_pos hp]
        have g2 := good_fill g1.inv hs1 x hnone
        rw [setVar_self, setVar_setVar, put_put] at g2
        obtain ⟨hm1, -⟩ := g1.inv.at hs1
        have hne1 : b.id ≠ s1.next := by have := g1.inv.node_lt hs1; omega
        refine ⟨_, t, _, ?_, g1.trans g2, hv, ?_⟩
        · have hm' : (alloc s1 (some b.id) x).mem b.id = some ⟨b.par, b.val, ptrs (ofList (k.toList.set pos none))⟩ := by rw [alloc_mem, if_neg hne1, hm1]
          have hlen : pos < (ptrs (ofList (k.toList.set pos none) : AS α)).length := by rw [length_ptrs, toList_ofList, List.length_set]; exact hp
          simp only [replaceAt, cell_eq hm, Res.bind_ok, hmax, if_true, length_ptrs, hp, e1, cell_eq hm', change_eq hm']
          rw [length_ptrs] at hlen
          simp only [hlen, if_true]
        · rw [toList_ofList, List.set_set, vals_ofList, List.map_set, setSlot, vals_toList, List.length_map,
            show pos + 1 - k.toList.length = 0 by omega, List.replicate_zero, List.append_nil]
          rfl
      · have hsl : slot k pos = none := by rw [slot, List.getElem?_eq_none (by omega)]; rfl
        have g1 := good_grow_fill h hs x (by omega : k.toList.length ≤ pos)
        refine ⟨_, none, _, ?_, g1.trans (good_null g1.inv), by rw [hsl], vals_fill _ _ _⟩
        have hm' : (alloc (s.set b.id ⟨b.par, b.val, resize (ptrs k) (pos + 1)⟩) (some b.id) x).mem b.id =
            some ⟨b.par, b.val, resize (ptrs k) (pos + 1)⟩ := by
          rw [alloc_mem]
          rw [if_neg (show b.id ≠ (s.set b.id _).next from hne), set_self]
        have hlen : pos < (resize (ptrs k) (pos + 1)).length := by
          rw [← ptrs_pad (by omega), length_ptrs]
          exact (List.getElem?_eq_some_iff.1 (pad_get (by omega : k.toList.length ≤ pos))).1
        simp only [replaceAt, cell_eq hm, Res.bind_ok, hmax, if_true, length_ptrs, hp, if_false, change_eq hm, cell_eq hm', hlen, change_eq hm']
        rfl
    obtain ⟨s1, t, k', e1, g1, hv, hv'⟩ := key
    obtain ⟨s2, e2, g2⟩ := store_good g1.inv u
    refine ⟨.bool (ptrT t).isSome, s2, _, (g1.trans g2).step ?_ fun _ => ?_⟩
    · simp only [nstep, on_some h hs, e1, e2, Res.bind_ok]
    · have : valsT (some (b, k)) = some (b.val, vals k) := rfl
      rw [valsT_setVar, valsT_setVar, valsT_put]
      simp only [nspec, ← valsT_sub, hs, this, vals_slot, hv]
      have e3 : (ptrT t).isSome = (valsT (slot k pos)).isSome := by rw [← hv]; cases t <;> rfl
      have e4 : valsT (some (b, k')) = some (b.val, ofList (setSlot (vals k).toList pos (some (x, .nil)))) := by
        show some (b.val, vals k') = _
        rw [hv']
      rw [e3, e4]

/-! ### Variables -/

theorem step_reset {max : Nat} {dflt : α} {s : St α} {T : Var → AT α} (h : Inv s T .nil) (v : Var) :
    ∃ o s' T', StepOk max dflt s T (.reset v) o s' T' := by
  obtain ⟨s1, e1, g1⟩ := reset_good h v
  refine ⟨.unit, s1, _, g1.step ?_ fun _ => ?_⟩
  · simp only [nstep, e1, Res.bind_ok]
  · rw [valsT_setVar]; rfl

theorem without_none (s : St α) (t : AT α) (h : t = none) : without s (ids (ofList [t])) = s := by
  rw [ids_single, h]; exact without_nil s

theorem step_addRoot {max : Nat} {dflt : α} {s : St α} {T : Var → AT α} (h : Inv s T .nil) (k : Nat) (x : α) :
    ∃ o s' T', StepOk max dflt s T (.addRoot k x) o s' T' := by
  obtain ⟨s1, e1, g1⟩ := reset_good h (.tree k)
  have g2 := good_alloc g1.inv x
  have g3 := good_swap g2.inv (.tree k)
  have g4 := good_drop g3.inv
  rw [without_none _ _ (by rw [setVar_self])] at g4
  refine ⟨.unit, _, _, (g1.trans (g2.trans (g3.trans g4))).step ?_ fun _ => ?_⟩
  · simp only [nstep, addRoot, e1, Res.bind_ok]
    rfl
  · rw [setVar_setVar, valsT_setVar]; rfl

theorem step_moveUptr {max : Nat} {dflt : α} {s : St α} {T : Var → AT α} (h : Inv s T .nil) (u g : Nat) :
    ∃ o s' T', StepOk max dflt s T (.moveUptr u g) o s' T' := by
  have g0 := good_null h
  have g1 := good_swap g0.inv (.uptr g)
  obtain ⟨s2, e2, g2⟩ := store_good g1.inv u
  refine ⟨.unit, s2, _, (g0.trans (g1.trans g2)).step ?_ fun _ => ?_⟩
  · have e2 : store (s.setVar (.uptr g) none) u (ptrT (T (.uptr g))) = .ok s2 := e2
    simp only [nstep, moveUptr, h.root, e2, Res.bind_ok]
  · rw [valsT_setVar, valsT_setVar]
    simp only [nspec]
    by_cases e : u = g
    · subst e
      rw [if_pos rfl, setVar_setVar]
      congr 1
      funext w
      by_cases ew : w = .uptr u
      · simp [ew, setVar_self]
      · rw [setVar_other _ _ ew]
    · rw [if_neg e]
      congr 1
      funext w
      have hne : Var.uptr u ≠ .uptr g := fun hc => e (by injection hc)
      simp only [Spec.setVar]
      by_cases ew : w = .uptr u
      · subst ew
        simp [hne]
      · simp [ew, valsT]

theorem step_move {max : Nat} {dflt : α} {s : St α} {T : Var → AT α} (h : Inv s T .nil) (k j : Nat) :
    ∃ o s' T', StepOk max dflt s T (.move k j) o s' T' := by
  have g0 := good_null h
  have g1 := good_swap g0.inv (.tree j)
  by_cases e : k = j
  · subst e
    have hstate : moveTree s k k = s.setVar (.tree k) (ptrT (none : AT α)) := by
      simp only [moveTree, St.setVar, ptrT, Option.map_none]
      congr 1
      funext w
      by_cases hw : w = .tree k <;> simp [hw]
    refine ⟨.unit, s.setVar (.tree k) (ptrT (none : AT α)), Spec.setVar T (.tree k) none, ?_, ?_, fun _ => ?_, fun ht hl => ?_, fun _ hp => ?_, fun i hi => ?_, fun hn => ?_⟩
    · show Res.ok (NOut.unit, moveTree s k k) = _
      rw [hstate]
    · exact inv_forget g1.inv (fun _ _ => rfl) rfl rfl
    · rw [valsT_setVar]
      simp only [nspec, setVar_setVar]
      rfl
    · have hT : T (.tree k) = none := ptrT_none.1 (by rw [← h.root]; exact ht)
      have := g1.leak (g0.leak hl)
      rw [hT] at this
      exact this
    · exact ⟨(g1.par (g0.par hp)).1, trivial⟩
    · exact lost_forget (g1.lost i (g0.lost i hi))
    · exact lost_loose g1.inv fun hc => hn (show s.vars (.tree k) = none by rw [h.root, hc]; rfl)
  · have hne : Var.tree k ≠ .tree j := fun hc => e (by injection hc)
    have g2 := good_swap g1.inv (.tree k)
    have hstate : moveTree s k j = (s.setVar (.tree j) (ptrT (none : AT α))).setVar (.tree k) (ptrT (T (.tree j))) := by
      simp only [moveTree, St.setVar, ptrT, Option.map_none]
      congr 1
      funext w
      by_cases hw : w = .tree k
      · subst hw
        simp only [hne, if_false, if_true]
        exact h.root (.tree j)
      · simp [hw]
    refine ⟨.unit, (s.setVar (.tree j) (ptrT (none : AT α))).setVar (.tree k) (ptrT (T (.tree j))), Spec.setVar (Spec.setVar T (.tree j) none) (.tree k) (T (.tree j)), ?_, ?_, fun _ => ?_, fun ht hl => ?_, fun _ hp => ?_, fun i hi => ?_, fun hn => ?_⟩
    · show Res.ok (NOut.unit, moveTree s k j) = _
      rw [hstate]
    · exact inv_forget g2.inv (fun _ _ => rfl) rfl rfl
    · rw [valsT_setVar, valsT_setVar]
      simp only [nspec]
      congr 1
      funext w
      simp only [Spec.setVar]
      by_cases ew : w = .tree k
      · subst ew
        simp [hne]
      · simp [ew, valsT]
    · have hT : T (.tree k) = none := ptrT_none.1 (by rw [← h.root]; exact ht)
      have := g2.leak (g1.leak (g0.leak hl))
      rw [setVar_other _ _ hne, hT] at this
      exact this
    · exact ⟨(g2.par (g1.par (g0.par hp))).1, trivial⟩
    · exact lost_forget (g2.lost i (g1.lost i (g0.lost i hi)))
    · exact lost_loose g2.inv fun hc => hn (show s.vars (.tree k) = none by rw [setVar_other _ _ hne] at hc; rw [h.root, hc]; rfl)

end Verif.NMem
