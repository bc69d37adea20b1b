import Verif.NMem.Props

/-!
Programs over n-ary trees (structures/tree.h) in which allocations and copies of elements throw.

* A statement gets the point at which it throws, or none.  If the statement does not come to the point, it is executed as usual.
* The program catches the exception and goes on.  What was changed before the exception stays; local `unique_ptr`s delete what they own.
* An assignment of an element, an allocation or a growing vector that throws has no effect itself (for vectors of pointers this is
  guaranteed).  Destructors do not throw.
-/

namespace Verif.NMem
open Nary (Slots Node)
open Spec
variable {α β : Type}

/-- The points that may throw. -/
inductive NPt where
  /-- `new node_type_t`: the allocation or the copy of the value -/
  | new
  /-- `push_back` or `resize` of the vector of children -/
  | grow
  /-- the copy or the assignment of a value -/
  | value
  /-- the last assignment of `swap` (tree.h:129, 117) -/
  | back
  /-- the copy of the vector of children -/
  | slots
  /-- `value` and `slots` in the copy constructor of a tree (tree.h:898-900) -/
  | valueNew
  | slotsNew
deriving DecidableEq, Repr

/-! ### What is left behind -/

/-- Get a node and go on with it; a statement about a node that is not there does not come to any point. -/
def onCut (s : St α) (l : Loc) (f : Nat → Res (Option (St α))) : Res (Option (St α)) :=
  match resolve s (s.vars l.var) l.path with
  | .ok i => f i
  | .exc _ => .ok none
  | .ub => .ub

/-- tree.h:305-311 `add_child`: the new node is not owned by anything when `push_back` throws. -/
def cutAdd (max : Nat) (s : St α) (i : Nat) (x : α) (p : NPt) : Res (Option (St α)) := do
  let c ← cell s i
  if c.kids.length < max then
    match p with
    | .new => .ok (some s)
    | .grow => .ok (some (alloc s (some i) x))
    | _ => .ok none
  else .ok none

/-- tree.h:320-330 `insert_at_first_null`. -/
def cutFirstNull (max : Nat) (s : St α) (i : Nat) (x : α) (p : NPt) : Res (Option (St α)) := do
  let c ← cell s i
  if c.kids.findIdx (·.isNone) < c.kids.length then
    if p = .new then .ok (some s) else .ok none
  else cutAdd max s i x p

/-- tree.h:347-363 `insert_at`: the vector has grown when `new` throws. -/
def cutInsertAt (max : Nat) (s : St α) (i pos : Nat) (p : NPt) : Res (Option (St α)) := do
  let c ← cell s i
  if pos < max then
    if pos < c.kids.length then
      if c.kids[pos]? = some none ∧ p = .new then .ok (some s) else .ok none
    else
      match p with
      | .grow => .ok (some s)
      | .new => do
        let s ← change s i fun c => { c with kids := resize c.kids (pos + 1) }
        .ok (some s)
      | _ => .ok none
  else .ok none

/-- tree.h:381-399 `replace_at`: `replaced` deletes the child when `new` throws. -/
def cutReplaceAt (max : Nat) (s : St α) (i pos : Nat) (p : NPt) : Res (Option (St α)) := do
  let c ← cell s i
  if pos < max then
    if pos < c.kids.length then
      if p = .new then do
        let (r, s) ← takeChild s i pos
        let s ← deletePtr s.fuel s r
        .ok (some s)
      else .ok none
    else
      match p with
      | .grow => .ok (some s)
      | .new => do
        let s ← change s i fun c => { c with kids := resize c.kids (pos + 1) }
        .ok (some s)
      | _ => .ok none
  else if p = .new then .ok (some s) else .ok none

/-- tree.h:113-130 `swap` and `swap_move`. -/
def cutSwap (s : St α) (i j : Nat) : NPt → Res (Option (St α))
  | .value => .ok (some s)
  | .back => do
    let c ← cell s i
    let s ← change s j fun d => { d with val := c.val }
    .ok (some s)
  | _ => .ok none

/-- tree.h:290 and 84: `_parent`, the value and the vector are assigned in this order. -/
def cutAssign (s : St α) (dst src : Nat) : NPt → Res (Option (St α))
  | .value => do
    let c ← cell s src
    let s ← change s dst fun d => { d with par := c.par }
    .ok (some s)
  | .slots => do
    let c ← cell s src
    let s ← change s dst fun d => { d with par := c.par, val := c.val }
    .ok (some s)
  | _ => .ok none

/-- tree.h:291 and 85: the vector is moved, which does not throw. -/
def cutMove (s : St α) (dst src : Nat) : NPt → Res (Option (St α))
  | .value => do
    let c ← cell s src
    let s ← change s dst fun d => { d with par := c.par }
    .ok (some s)
  | _ => .ok none

/-- tree.h:916-923 `operator=(const tree_t&)`, and the copy constructor (898-900): when it throws, its `_root` is gone. -/
def cutCopy (dflt : α) (s : St α) (k j : Nat) (p : NPt) : Res (Option (St α)) :=
  match s.vars (.tree j) with
  | none => .ok none
  | some src0 =>
    let s1 := (alloc s none dflt).setVar (.tree k) (some s.next)
    match p, s1.vars (.tree j) with
    | .new, _ => .ok (some s)
    | .value, some src => cutAssign s1 s.next src .value
    | .slots, some src => cutAssign s1 s.next src .slots
    | .valueNew, _ => if s.vars (.tree k) = none then cutAssign (alloc s none dflt) s.next src0 .value else .ok none
    | .slotsNew, _ => if s.vars (.tree k) = none then cutAssign (alloc s none dflt) s.next src0 .slots else .ok none
    | _, _ => .ok none

/-- The state when the statement throws at the point; `none` if it does not come to it. -/
def ncut (max : Nat) (dflt : α) (s : St α) : NOp α → NPt → Res (Option (St α))
  | .addRoot k _, .new => do  -- tree.h:1033-1038
    let s ← reset s (.tree k)
    .ok (some s)
  | .addChild l x, p => onCut s l fun i => cutAdd max s i x p
  | .insertFirstNull l x, p => onCut s l fun i => cutFirstNull max s i x p
  | .insertAt l pos _, p => onCut s l fun i => cutInsertAt max s i pos p
  | .replaceAt l pos _ _, p => onCut s l fun i => cutReplaceAt max s i pos p
  | .setValue l _, .value => onCut s l fun _ => .ok (some s)  -- tree.h:94-106
  | .swapValues l m, p => onCut s l fun i => onCut s m fun j => cutSwap s i j p
  | .assign l m, p => onCut s m fun src => onCut s l fun dst => cutAssign s dst src p
  | .moveAssign l m, p => onCut s m fun src => onCut s l fun dst => cutMove s dst src p
  | .copy k j, p => cutCopy dflt s k j p
  | _, _ => .ok none

/-- A statement and the point at which it throws; the result is `none` when it does. -/
def nstepT (max : Nat) (dflt : α) (s : St α) (op : NOp α) : Option NPt → Res (Option (NOut α) × St α)
  | none => do
    let (o, s) ← nstep max dflt s op
    .ok (some o, s)
  | some p => do
    match ← ncut max dflt s op p with
    | some s' => .ok (none, s')
    | none => do
      let (o, s) ← nstep max dflt s op
      .ok (some o, s)

def nrunT (max : Nat) (dflt : α) (s : St α) : List (NOp α × Option NPt) → Res (List (Option (NOut α)) × St α)
  | [] => .ok ([], s)
  | (op, p) :: ops => do
    let (o, s) ← nstepT max dflt s op p
    let (os, s) ← nrunT max dflt s ops
    .ok (o :: os, s)

namespace Spec

/-- What a statement that throws leaves behind, on values; `none` if it does not come to the point. -/
def ncutSpec (max : Nat) (dflt : α) (S : Var → Tree α) : NOp α → NPt → Option (Var → Tree α)
  -- the tree is gone
  | .addRoot k _, .new => some (setVar S (.tree k) none)
  -- nothing happens
  | .addChild l _, .new | .addChild l _, .grow =>
    match sub (S l.var) l.path with
    | some (_, k) => if k.toList.length < max then some S else none
    | none => none
  | .insertFirstNull l _, .new =>
    match sub (S l.var) l.path with
    | some (_, k) => if k.toList.any (·.isNone) = true ∨ k.toList.length < max then some S else none
    | none => none
  | .insertFirstNull l _, .grow =>
    match sub (S l.var) l.path with
    | some (_, k) => if k.toList.any (·.isNone) = false ∧ k.toList.length < max then some S else none
    | none => none
  | .insertAt l pos _, .grow =>
    match sub (S l.var) l.path with
    | some (_, k) => if pos < max ∧ k.toList.length ≤ pos then some S else none
    | none => none
  -- there are null slots up to the position
  | .insertAt l pos _, .new =>
    match sub (S l.var) l.path with
    | some (v, k) =>
      if pos < max ∧ slot k pos = none then some (setVar S l.var (put (S l.var) l.path (some (v, ofList (setSlot k.toList pos none))))) else none
    | none => none
  | .replaceAt l pos _ _, .grow =>
    match sub (S l.var) l.path with
    | some (_, k) => if pos < max ∧ k.toList.length ≤ pos then some S else none
    | none => none
  -- the child is gone
  | .replaceAt l pos _ _, .new =>
    match sub (S l.var) l.path with
    | some (v, k) =>
      if pos < max then some (setVar S l.var (put (S l.var) l.path (some (v, ofList (setSlot k.toList pos none))))) else some S
    | none => none
  | .setValue l _, .value => if (sub (S l.var) l.path).isSome then some S else none
  | .swapValues l m, .value => if (sub (S l.var) l.path).isSome ∧ (sub (S m.var) m.path).isSome then some S else none
  -- both nodes have the value of the first one
  | .swapValues l m, .back =>
    match sub (S l.var) l.path, sub (S m.var) m.path with
    | some (x, _), some (_, k) => some (setVar S m.var (put (S m.var) m.path (some (x, k))))
    | _, _ => none
  | .assign l m, .value | .moveAssign l m, .value => if (sub (S m.var) m.path).isSome ∧ (sub (S l.var) l.path).isSome then some S else none
  -- the value is assigned, the children not
  | .assign l m, .slots =>
    match sub (S m.var) m.path, sub (S l.var) l.path with
    | some (x, _), some (_, k) => some (setVar S l.var (put (S l.var) l.path (some (x, k))))
    | _, _ => none
  | .copy _ j, .new => if (S (.tree j)).isSome then some S else none
  -- the tree is a single node
  | .copy k j, .value => if (S (.tree j)).isSome then some (setVar S (.tree k) (some (dflt, .nil))) else none
  | .copy k j, .slots =>
    match S (.tree j) with
    | some (x, _) => some (setVar S (.tree k) (some (if k = j then dflt else x, .nil)))
    | none => none
  | .copy k j, .valueNew | .copy k j, .slotsNew => if (S (.tree j)).isSome ∧ S (.tree k) = none then some S else none
  | _, _ => none

/-- A statement with or without exception. -/
def nspecT (max : Nat) (dflt : α) (S : Var → Tree α) (op : NOp α) : Option NPt → Option (NOut α) × (Var → Tree α)
  | none => (some (nspec max S op).1, (nspec max S op).2)
  | some p =>
    match ncutSpec max dflt S op p with
    | some S' => (none, S')
    | none => (some (nspec max S op).1, (nspec max S op).2)

def nrunTSpec (max : Nat) (dflt : α) (S : Var → Tree α) : List (NOp α × Option NPt) → List (Option (NOut α)) × (Var → Tree α)
  | [] => ([], S)
  | (op, p) :: ops =>
    ((nspecT max dflt S op p).1 :: (nrunTSpec max dflt (nspecT max dflt S op p).2 ops).1, (nrunTSpec max dflt (nspecT max dflt S op p).2 ops).2)

/-- `P` for a statement that does not throw, `Q` for one that does. -/
def Either (max : Nat) (dflt : α) (P : St α → NOp α → Prop) (Q : St α → NOp α → NPt → Prop) (s : St α) (op : NOp α) : Option NPt → Prop
  | none => P s op
  | some p =>
    match ncut max dflt s op p with
    | .ok (some _) => Q s op p
    | _ => P s op

/-- Every statement is allowed in the state where it is executed. -/
def AlwaysT (max : Nat) (dflt : α) (P : St α → NOp α → Prop) (Q : St α → NOp α → NPt → Prop) (s : St α) : List (NOp α × Option NPt) → Prop
  | [] => True
  | (op, p) :: ops => Either max dflt P Q s op p ∧ ∀ o s', nstepT max dflt s op p = .ok (o, s') → AlwaysT max dflt P Q s' ops

/-- A statement that throws is always safe. -/
def Any (_ : St α) (_ : NOp α) (_ : NPt) : Prop := True

/-- A statement that throws does not lose a node, unless the vector cannot grow after the node was made, or a tree is copied to one that is not
empty, or a tree is constructed as a copy. -/
def TidyCut (s : St α) : NOp α → NPt → Prop
  | .addChild _ _, .grow | .insertFirstNull _ _, .grow => False
  | .copy k _, .value | .copy k _, .slots => s.vars (.tree k) = none
  | .copy _ _, .valueNew | .copy _ _, .slotsNew => False
  | _, _ => True

/-- An assignment of nodes that throws keeps the parents right if the nodes have the same one. -/
def LocalCut (_ : St α) : NOp α → NPt → Prop
  | .assign l m, _ | .moveAssign l m, _ => l = m ∨ Siblings l m
  | _, _ => True

end Spec

/-! ### Every statement that throws keeps the invariant -/

theorem put_same (path : List Nat) : ∀ {t : Tree β} {n : Node β}, sub t path = some n → put t path (some n) = t := by
  induction path with
  | nil => intro t n h; rw [put_nil, ← h, sub_nil]
  | cons p path ih =>
    intro t n h
    rcases t with _ | ⟨b, k⟩
    · cases h
    · have h : sub (slot k p) path = some n := h
      show some (b, ofList (k.toList.modify p fun t => put t path (some n))) = some (b, k)
      have : k.toList.modify p (fun t => put t path (some n)) = k.toList := by
        apply List.ext_getElem?
        intro q
        rw [List.getElem?_modify]
        cases hq : k.toList[q]? with
        | none => rfl
        | some t =>
          by_cases e : p = q
          · subst e
            have hs : slot k p = t := by simp [slot, hq]
            rw [hs] at h
            simp [ih h]
          · simp [e]
      rw [this, ofList_toList]

theorem setVar_same (S : Var → Tree β) (v : Var) : Spec.setVar S v (S v) = S := by
  funext w
  by_cases e : w = v
  · subst e; rw [setVar_self]
  · rw [setVar_other _ _ e]

theorem isSome_valsT (t : AT α) : (valsT t).isSome = t.isSome := by cases t <;> rfl

structure CutOk (max : Nat) (dflt : α) (s : St α) (T : Var → AT α) (op : NOp α) (p : NPt) (s' : St α) (T' : Var → AT α) : Prop where
  run : ncut max dflt s op p = .ok (some s')
  inv : Inv s' T' .nil
  spec : ncutSpec max dflt (fun v => valsT (T v)) op p = some (fun v => valsT (T' v))
  leak : TidyCut s op p → NoLeak s T .nil → NoLeak s' T' .nil
  par : LocalCut s op p → Par T .nil → Par T' .nil
  lost : ∀ i, Lost s T .nil i → Lost s' T' .nil i
  new : ¬ TidyCut s op p → ∃ i, Lost s' T' .nil i

/-- The statement throws and is right, or does not come to the point. -/
def CutGood (max : Nat) (dflt : α) (s : St α) (T : Var → AT α) (op : NOp α) (p : NPt) : Prop :=
  (∃ s' T', CutOk max dflt s T op p s' T') ∨ (ncut max dflt s op p = .ok none ∧ ncutSpec max dflt (fun v => valsT (T v)) op p = none)

theorem Good.cut {max : Nat} {dflt : α} {s : St α} {T : Var → AT α} {op : NOp α} {p : NPt} {s' : St α} {T' : Var → AT α}
    (h : Good s T .nil s' T' .nil) (hr : ncut max dflt s op p = .ok (some s'))
    (hs : ncutSpec max dflt (fun v => valsT (T v)) op p = some (fun v => valsT (T' v)))
    (ht : TidyCut s op p := by trivial) : CutGood max dflt s T op p :=
  .inl ⟨s', T', hr, h.inv, hs, fun _ => h.leak, fun _ => h.par, h.lost, fun hn => absurd ht hn⟩

theorem cut_none {s : St α} {T : Var → AT α} {L : AS α} (h : Inv s T L) {l : Loc} (hs : sub (T l.var) l.path = none)
    (f : Nat → Res (Option (St α))) : onCut s l f = .ok none := by
  simp only [onCut, h.root, resolve_rep l.path (h.rep l.var), hs]

theorem cut_some {s : St α} {T : Var → AT α} {L : AS α} (h : Inv s T L) {l : Loc} {n : Node (Info α)} (hs : sub (T l.var) l.path = some n)
    (f : Nat → Res (Option (St α))) : onCut s l f = f n.1.id := by
  simp only [onCut, h.root, resolve_rep l.path (h.rep l.var), hs]

/-- A new node that nothing owns. -/
theorem inv_leak {s : St α} {T : Var → AT α} (h : Inv s T .nil) (p : Ptr) (x : α) :
    Inv (alloc s p x) T .nil ∧ (∀ i, Lost s T .nil i → Lost (alloc s p x) T .nil i) ∧ Lost (alloc s p x) T .nil s.next := by
  have hold : ∀ i, i < s.next → (alloc s p x).mem i = s.mem i := fun i hi => by rw [alloc_mem, if_neg (by omega)]
  refine ⟨⟨fun v => rep_congr (h.rep v) fun i hi => hold i (h.lt_ids hi), h.root, h.nodup, h.disj, fun i hi => ?_, trivial, List.nodup_nil,
    fun _ _ _ => by simp [ids]⟩, fun i hi => ?_, ⟨_, by rw [alloc_mem, if_pos rfl]⟩, fun v hv => ?_, by simp [ids]⟩
  · have hi : s.next + 1 ≤ i := hi
    rw [alloc_mem, if_neg (by omega)]
    exact h.fresh i (by omega)
  · obtain ⟨⟨c, hc⟩, h1, h2⟩ := hi
    exact ⟨⟨c, by rw [hold i (h.lt hc)]; exact hc⟩, h1, h2⟩
  · have := h.lt_ids hv
    omega

/-- The parent and the value of a node change. -/
theorem upd_node {s : St α} {T : Var → AT α} (h : Inv s T .nil) {v : Var} {path : List Nat} {b : Info α} {k : AS α}
    (hs : sub (T v) path = some (b, k)) (q : Ptr) (x : α) :
    Upd s (s.set b.id ⟨q, x, ptrs k⟩) b k .nil ⟨b.id, q, x⟩ k .nil ∧
    (NoLeak s T .nil → NoLeak (s.set b.id ⟨q, x, ptrs k⟩) (Spec.setVar T v (put (T v) path (some (⟨b.id, q, x⟩, k)))) .nil) ∧
    (q = b.par → Par T .nil → Par (Spec.setVar T v (put (T v) path (some (⟨b.id, q, x⟩, k)))) .nil) := by
  obtain ⟨hm, hk⟩ := h.at hs
  obtain ⟨n1, n2⟩ := h.node_nodup hs
  refine ⟨⟨rfl, set_self _ _ _, rep_congrS hk fun i hi => set_other _ _ fun e => n1 (e ▸ hi), trivial, fun i hi _ _ _ => set_other _ _ hi, rfl,
    fun i hi => ?_, by simpa [ids] using n2, fun i hi => .inl (by simpa [ids] using hi)⟩, fun hn => hn.upd hs rfl fun i c hi => ?_,
    fun e hp => hp.upd hs rfl e fun h1 h2 => ⟨h1, h2⟩⟩
  · rw [set_other _ _ (by have := h.node_lt hs; have : s.next ≤ i := hi; omega)]
    exact h.fresh i hi
  · by_cases e : i = b.id
    · exact .inl e
    · rw [set_other _ _ e] at hi
      by_cases e' : i ∈ ids k
      · exact .inr (.inl e')
      · exact .inr (.inr (.inr ⟨e', by simp [ids], c, hi⟩))

theorem vals_put_same {T : Var → AT α} {v : Var} {path : List Nat} {b b' : Info α} {k : AS α} (hs : sub (T v) path = some (b, k)) (hb : b'.val = b.val) :
    (fun w => valsT (Spec.setVar T v (put (T v) path (some (b', k))) w)) = fun w => valsT (T w) := by
  have e : valsT (some (b', k)) = valsT (some (b, k)) := by simp only [valsT, Option.map_some, hb]
  rw [valsT_setVar, valsT_put, e, ← hs, valsT_sub]
  have : put (valsT (T v)) path (sub (valsT (T v)) path) = valsT (T v) := by
    cases hx : sub (valsT (T v)) path with
    | none => rw [← valsT_sub, hs] at hx; cases hx
    | some n => exact put_same path hx
  rw [this]
  exact setVar_same (fun w => valsT (T w)) v

theorem vals_put {T : Var → AT α} {v : Var} {path : List Nat} {b : Info α} {k : AS α} {x : α} {k' : Slots α} (hb : b.val = x) (hk : vals k = k') :
    (fun w => valsT (Spec.setVar T v (put (T v) path (some (b, k))) w)) =
      Spec.setVar (fun w => valsT (T w)) v (put (valsT (T v)) path (some (x, k'))) := by
  subst hb hk
  rw [valsT_setVar, valsT_put]
  rfl

theorem cut_add {max : Nat} {dflt : α} {s : St α} {T : Var → AT α} (h : Inv s T .nil) (l : Loc) (x : α) (p : NPt) :
    CutGood max dflt s T (.addChild l x) p := by
  cases hs : sub (T l.var) l.path with
  | none =>
    refine .inr ⟨cut_none h hs _, ?_⟩
    have : sub (valsT (T l.var)) l.path = none := by rw [← valsT_sub, hs]; rfl
    cases p <;> simp only [ncutSpec, this]
  | some n =>
    obtain ⟨b, k⟩ := n
    have hm := (h.at hs).1
    have hv : sub (valsT (T l.var)) l.path = some (b.val, vals k) := by rw [← valsT_sub, hs]; rfl
    have hlen : (vals k).toList.length = k.toList.length := by rw [vals_toList, List.length_map]
    have hr : ncut max dflt s (.addChild l x) p = cutAdd max s b.id x p := cut_some h hs _
    by_cases hl : k.toList.length < max
    · cases p with
      | new =>
        refine (Good.refl h).cut ?_ (by simp only [ncutSpec, hv, hlen, hl, if_true])
        simp only [hr, cutAdd, cell_eq hm, Res.bind_ok, length_ptrs, hl, if_true]
      | grow =>
        obtain ⟨h1, h2, h3⟩ := inv_leak h (some b.id) x
        refine .inl ⟨alloc s (some b.id) x, T, ?_, h1, by simp only [ncutSpec, hv, hlen, hl, if_true], fun ht => ht.elim, fun _ => id, h2, fun _ => ⟨_, h3⟩⟩
        simp only [hr, cutAdd, cell_eq hm, Res.bind_ok, length_ptrs, hl, if_true]
      | _ => exact .inr ⟨by simp only [hr, cutAdd, cell_eq hm, Res.bind_ok, length_ptrs, hl, if_true], rfl⟩
    · refine .inr ⟨by simp only [hr, cutAdd, cell_eq hm, Res.bind_ok, length_ptrs, hl, if_false], ?_⟩
      cases p <;> simp only [ncutSpec, hv, hlen, hl, if_false]

theorem any_null (k : AS α) : (vals k).toList.any (·.isNone) = k.toList.any (·.isNone) := by
  rw [vals_toList, List.any_map]
  congr 1
  funext t
  cases t <;> rfl

theorem cut_firstNull {max : Nat} {dflt : α} {s : St α} {T : Var → AT α} (h : Inv s T .nil) (l : Loc) (x : α) (p : NPt) :
    CutGood max dflt s T (.insertFirstNull l x) p := by
  cases hs : sub (T l.var) l.path with
  | none =>
    refine .inr ⟨cut_none h hs _, ?_⟩
    have : sub (valsT (T l.var)) l.path = none := by rw [← valsT_sub, hs]; rfl
    cases p <;> simp only [ncutSpec, this]
  | some n =>
    obtain ⟨b, k⟩ := n
    have hm := (h.at hs).1
    have hv : sub (valsT (T l.var)) l.path = some (b.val, vals k) := by rw [← valsT_sub, hs]; rfl
    have hlen : (vals k).toList.length = k.toList.length := by rw [vals_toList, List.length_map]
    have hr : ncut max dflt s (.insertFirstNull l x) p = cutFirstNull max s b.id x p := cut_some h hs _
    have hidx : k.toList.findIdx (·.isNone) < k.toList.length ↔ k.toList.any (·.isNone) = true := by
      rw [List.findIdx_lt_length, List.any_eq_true]
    by_cases hi : k.toList.findIdx (·.isNone) < k.toList.length
    · have ha := hidx.1 hi
      cases p with
      | new =>
        refine (Good.refl h).cut ?_ (by simp only [ncutSpec, hv, any_null, ha, true_or, if_true])
        simp only [hr, cutFirstNull, cell_eq hm, Res.bind_ok, length_ptrs, findIdx_ptrs, hi, if_true]
      | grow =>
        refine .inr ⟨?_, by simp [ncutSpec, hv, any_null, ha]⟩
        simp only [hr, cutFirstNull, cell_eq hm, Res.bind_ok, length_ptrs, findIdx_ptrs, hi, if_true]
        rfl
      | _ =>
        refine .inr ⟨?_, rfl⟩
        simp only [hr, cutFirstNull, cell_eq hm, Res.bind_ok, length_ptrs, findIdx_ptrs, hi, if_true]
        rfl
    · have ha : k.toList.any (·.isNone) = false := by
        cases e : k.toList.any (·.isNone) with
        | false => rfl
        | true => exact absurd (hidx.2 e) hi
      have hr2 : ncut max dflt s (.insertFirstNull l x) p = ncut max dflt s (.addChild l x) p := by
        rw [hr, show ncut max dflt s (.addChild l x) p = cutAdd max s b.id x p from cut_some h hs _]
        simp only [cutFirstNull, cell_eq hm, Res.bind_ok, length_ptrs, findIdx_ptrs, hi, if_false]
      have hs2 : ncutSpec max dflt (fun v => valsT (T v)) (.insertFirstNull l x) p = ncutSpec max dflt (fun v => valsT (T v)) (.addChild l x) p := by
        cases p <;> simp [ncutSpec, hv, any_null, ha]
      have ht2 : TidyCut s (.insertFirstNull l x) p = TidyCut s (.addChild l x) p := by cases p <;> rfl
      rcases cut_add (dflt := dflt) (max := max) h l x p with ⟨s', T', c⟩ | ⟨c1, c2⟩
      · exact .inl ⟨s', T', hr2.trans c.run, c.inv, hs2.trans c.spec, fun ht => c.leak (ht2 ▸ ht), fun _ => c.par trivial, c.lost, fun ht => c.new (ht2 ▸ ht)⟩
      · exact .inr ⟨hr2.trans c1, hs2.trans c2⟩

theorem setSlot_null {l : List (Option (Node β))} {pos : Nat} (h : l[pos]? = some none) : setSlot l pos none = l := by
  obtain ⟨hlt, e⟩ := List.getElem?_eq_some_iff.1 h
  rw [setSlot, show pos + 1 - l.length = 0 by omega, List.replicate_zero, List.append_nil, ← e, List.set_getElem_self]

theorem setSlot_pad {k : AS α} {pos : Nat} (h : k.toList.length ≤ pos) : vals (pad k (pos + 1)) = ofList (setSlot (vals k).toList pos none) := by
  rw [pad, vals_ofList, setSlot, vals_toList, List.map_append, List.map_replicate, List.length_map]
  congr 1
  apply List.ext_getElem?
  intro n
  rw [List.getElem?_set]
  by_cases e : pos = n
  · subst e
    rw [if_pos rfl, List.getElem?_append_right (by simpa using h), List.length_map, List.getElem?_replicate, if_pos (by omega)]
    simp only [List.length_append, List.length_map, List.length_replicate]
    rw [if_pos (by omega)]
    rfl
  · rw [if_neg e]
    rfl

theorem cut_insertAt {max : Nat} {dflt : α} {s : St α} {T : Var → AT α} (h : Inv s T .nil) (l : Loc) (pos : Nat) (x : α) (p : NPt) :
    CutGood max dflt s T (.insertAt l pos x) p := by
  cases hs : sub (T l.var) l.path with
  | none =>
    refine .inr ⟨cut_none h hs _, ?_⟩
    have : sub (valsT (T l.var)) l.path = none := by rw [← valsT_sub, hs]; rfl
    cases p <;> simp only [ncutSpec, this]
  | some n =>
    obtain ⟨b, k⟩ := n
    have hm := (h.at hs).1
    have hv : sub (valsT (T l.var)) l.path = some (b.val, vals k) := by rw [← valsT_sub, hs]; rfl
    have hlen : (vals k).toList.length = k.toList.length := by rw [vals_toList, List.length_map]
    have hr : ncut max dflt s (.insertAt l pos x) p = cutInsertAt max s b.id pos p := cut_some h hs _
    by_cases hmax : pos < max
    · by_cases hp : pos < k.toList.length
      · have hgrow : ncutSpec max dflt (fun v => valsT (T v)) (.insertAt l pos x) .grow = none := by
          simp only [ncutSpec, hv, hlen]
          rw [if_neg (by omega)]
        by_cases hn : k.toList[pos]? = some none
        · have hg : (ptrs k)[pos]? = some none := by simp only [ptrs, List.getElem?_map, hn]; rfl
          have hsl : slot (vals k) pos = none := by rw [vals_slot]; simp [slot, hn, valsT]
          have hnv : (vals k).toList[pos]? = some none := by rw [vals_toList, List.getElem?_map, hn]; rfl
          cases p with
          | new =>
            refine (good_same h hs).cut ?_ ?_
            · simp only [hr, cutInsertAt, cell_eq hm, Res.bind_ok, length_ptrs, hmax, hp, hg, and_self, if_true]
            · simp only [ncutSpec, hv, hmax, hsl, and_self, if_true]
              rw [setSlot_null hnv, ofList_toList, vals_put (T := T) (b := b) (k := k) rfl rfl]
          | grow => exact .inr ⟨by simp [hr, cutInsertAt, cell_eq hm, length_ptrs, hmax, hp], hgrow⟩
          | _ => exact .inr ⟨by simp [hr, cutInsertAt, cell_eq hm, length_ptrs, hmax, hp], rfl⟩
        · have hg : ¬ (ptrs k)[pos]? = some none := fun hc => hn (by
            simp only [ptrs, List.getElem?_map, List.getElem?_eq_getElem hp, Option.map_some, Option.some.injEq, ptrT_none] at hc
            rw [List.getElem?_eq_getElem hp, hc])
          have hsl : ¬ slot (vals k) pos = none := fun hc => hn (by
            rw [vals_slot, valsT_none, slot, List.getElem?_eq_getElem hp] at hc
            rw [List.getElem?_eq_getElem hp]
            simpa using hc)
          refine .inr ⟨by simp only [hr, cutInsertAt, cell_eq hm, Res.bind_ok, length_ptrs, hmax, hp, hg, false_and, if_true, if_false], ?_⟩
          cases p with
          | new => simp only [ncutSpec, hv, hsl, and_false, if_false]
          | grow => exact hgrow
          | _ => rfl
      · have hle : k.toList.length ≤ pos := by omega
        have hsl : slot (vals k) pos = none := by
          rw [vals_slot, slot, List.getElem?_eq_none hle]; rfl
        cases p with
        | new =>
          have g := good_pad h hs (pos + 1)
          rw [ptrs_pad (by omega)] at g
          refine g.cut ?_ ?_
          · simp only [hr, cutInsertAt, cell_eq hm, Res.bind_ok, length_ptrs, hmax, hp, if_true, if_false, change_eq hm]
          · simp only [ncutSpec, hv, hmax, hsl, and_self, if_true]
            rw [vals_put (T := T) (b := b) rfl (setSlot_pad hle)]
        | grow =>
          refine (Good.refl h).cut ?_ ?_
          · simp only [hr, cutInsertAt, cell_eq hm, Res.bind_ok, length_ptrs, hmax, hp, if_true, if_false]
          · simp only [ncutSpec, hv, hlen, hmax, hle, and_self, if_true]
        | _ => exact .inr ⟨by simp only [hr, cutInsertAt, cell_eq hm, Res.bind_ok, length_ptrs, hmax, hp, if_true, if_false], rfl⟩
    · refine .inr ⟨by simp only [hr, cutInsertAt, cell_eq hm, Res.bind_ok, hmax, if_false], ?_⟩
      cases p <;> simp only [ncutSpec, hv, hmax, false_and, if_false]

theorem cut_replaceAt {max : Nat} {dflt : α} {s : St α} {T : Var → AT α} (h : Inv s T .nil) (l : Loc) (pos : Nat) (x : α) (u : Nat) (p : NPt) :
    CutGood max dflt s T (.replaceAt l pos x u) p := by
  cases hs : sub (T l.var) l.path with
  | none =>
    refine .inr ⟨cut_none h hs _, ?_⟩
    have : sub (valsT (T l.var)) l.path = none := by rw [← valsT_sub, hs]; rfl
    cases p <;> simp only [ncutSpec, this]
  | some n =>
    obtain ⟨b, k⟩ := n
    have hm := (h.at hs).1
    have hv : sub (valsT (T l.var)) l.path = some (b.val, vals k) := by rw [← valsT_sub, hs]; rfl
    have hlen : (vals k).toList.length = k.toList.length := by rw [vals_toList, List.length_map]
    have hr : ncut max dflt s (.replaceAt l pos x u) p = cutReplaceAt max s b.id pos p := cut_some h hs _
    by_cases hmax : pos < max
    · by_cases hp : pos < k.toList.length
      · cases p with
        | new =>
          obtain ⟨s1, t, e1, g1, -⟩ := take_good h hs pos
          have g2 := good_drop g1.inv
          rw [ids_single] at g2
          have hrep : RepT s1.mem t := rep_ofList.1 g1.inv.repL t (by simp)
          have hnd : (idsT t).Nodup := by have := g1.inv.nodupL; rwa [ids_single] at this
          have hl := length_le_of_nodup hnd fun i hi => g1.inv.lt_idsL (by rw [ids_single]; exact hi)
          refine (g1.trans g2).cut ?_ ?_
          · simp only [hr, cutReplaceAt, cell_eq hm, Res.bind_ok, length_ptrs, hmax, hp, if_true, e1]
            rw [deletePtr_rep hrep hnd (by simp only [St.fuel]; omega)]
            rfl
          · simp only [ncutSpec, hv, hmax, if_true]
            rw [vals_put (T := T) (b := b) (k := ofList (k.toList.set pos none)) rfl rfl]
            congr 4
            rw [setSlot, hlen, show pos + 1 - k.toList.length = 0 by omega, List.replicate_zero, List.append_nil, vals_ofList, vals_toList, List.map_set]
            rfl
        | grow =>
          refine .inr ⟨by simp [hr, cutReplaceAt, cell_eq hm, length_ptrs, hmax, hp], ?_⟩
          simp only [ncutSpec, hv, hlen]
          rw [if_neg (by omega)]
        | _ => exact .inr ⟨by simp [hr, cutReplaceAt, cell_eq hm, length_ptrs, hmax, hp], rfl⟩
      · have hle : k.toList.length ≤ pos := by omega
        cases p with
        | new =>
          have g := good_pad h hs (pos + 1)
          rw [ptrs_pad (by omega)] at g
          refine g.cut ?_ ?_
          · simp only [hr, cutReplaceAt, cell_eq hm, Res.bind_ok, length_ptrs, hmax, hp, if_true, if_false, change_eq hm]
          · simp only [ncutSpec, hv, hmax, if_true]
            rw [vals_put (T := T) (b := b) rfl (setSlot_pad hle)]
        | grow =>
          refine (Good.refl h).cut ?_ ?_
          · simp only [hr, cutReplaceAt, cell_eq hm, Res.bind_ok, length_ptrs, hmax, hp, if_true, if_false]
          · simp only [ncutSpec, hv, hlen, hmax, hle, and_self, if_true]
        | _ => exact .inr ⟨by simp only [hr, cutReplaceAt, cell_eq hm, Res.bind_ok, length_ptrs, hmax, hp, if_true, if_false], rfl⟩
    · cases p with
      | new =>
        refine (Good.refl h).cut ?_ ?_
        · simp only [hr, cutReplaceAt, cell_eq hm, Res.bind_ok, hmax, if_true, if_false]
        · simp only [ncutSpec, hv, hmax, if_false]
      | grow => exact .inr ⟨by simp [hr, cutReplaceAt, cell_eq hm, hmax], by simp [ncutSpec, hv, hmax]⟩
      | _ => exact .inr ⟨by simp [hr, cutReplaceAt, cell_eq hm, hmax], rfl⟩

theorem cut_setValue {max : Nat} {dflt : α} {s : St α} {T : Var → AT α} (h : Inv s T .nil) (l : Loc) (x : α) (p : NPt) :
    CutGood max dflt s T (.setValue l x) p := by
  cases hs : sub (T l.var) l.path with
  | none =>
    have hv : sub (valsT (T l.var)) l.path = none := by rw [← valsT_sub, hs]; rfl
    cases p with
    | value => exact .inr ⟨cut_none h hs _, by simp [ncutSpec, hv]⟩
    | _ => exact .inr ⟨rfl, rfl⟩
  | some n =>
    have hv : (sub (valsT (T l.var)) l.path).isSome = true := by rw [← valsT_sub, hs]; rfl
    cases p with
    | value => exact (Good.refl h).cut (cut_some h hs _) (by simp only [ncutSpec, hv, if_true])
    | _ => exact .inr ⟨rfl, rfl⟩

theorem cut_swap {max : Nat} {dflt : α} {s : St α} {T : Var → AT α} (h : Inv s T .nil) (l m : Loc) (p : NPt) :
    CutGood max dflt s T (.swapValues l m) p := by
  cases hl : sub (T l.var) l.path with
  | none =>
    have hv : sub (valsT (T l.var)) l.path = none := by rw [← valsT_sub, hl]; rfl
    refine .inr ⟨cut_none h hl _, ?_⟩
    cases p <;> simp [ncutSpec, hv]
  | some n =>
    obtain ⟨b, k⟩ := n
    have hv : sub (valsT (T l.var)) l.path = some (b.val, vals k) := by rw [← valsT_sub, hl]; rfl
    cases hm : sub (T m.var) m.path with
    | none =>
      have hv2 : sub (valsT (T m.var)) m.path = none := by rw [← valsT_sub, hm]; rfl
      refine .inr ⟨(cut_some h hl _).trans (cut_none h hm _), ?_⟩
      cases p <;> simp [ncutSpec, hv2]
    | some n2 =>
      obtain ⟨b2, k2⟩ := n2
      have hv2 : sub (valsT (T m.var)) m.path = some (b2.val, vals k2) := by rw [← valsT_sub, hm]; rfl
      have hr : ncut max dflt s (.swapValues l m) p = cutSwap s b.id b2.id p := (cut_some h hl _).trans (cut_some h hm _)
      cases p with
      | value => exact (Good.refl h).cut hr (by simp only [ncutSpec, hv, hv2, Option.isSome_some, and_self, if_true])
      | back =>
        refine (good_node h hm b.val k2 rfl fun t ht => .inr ht).cut ?_ ?_
        · simp only [hr, cutSwap, cell_eq (h.at hl).1, change_eq (h.at hm).1, Res.bind_ok]
        · simp only [ncutSpec, hv, hv2]
          rw [vals_put (T := T) (b := ⟨b2.id, b2.par, b.val⟩) (k := k2) rfl rfl]
      | _ => exact .inr ⟨hr, rfl⟩

/-- `cutAssign` of one node to another. -/
theorem cut_par {max : Nat} {dflt : α} {s : St α} {T : Var → AT α} (h : Inv s T .nil) {l m : Loc} {b b2 : Info α} {k k2 : AS α}
    (hl : sub (T l.var) l.path = some (b, k)) (hm : sub (T m.var) m.path = some (b2, k2)) {op : NOp α} {p : NPt} (x : α)
    (hr : ncut max dflt s op p = .ok (some (s.set b.id ⟨b2.par, x, ptrs k⟩)))
    (hs : ncutSpec max dflt (fun v => valsT (T v)) op p =
      some (fun v => valsT (Spec.setVar T l.var (put (T l.var) l.path (some (⟨b.id, b2.par, x⟩, k))) v)))
    (ht : TidyCut s op p) (hloc : LocalCut s op p → l = m ∨ Siblings l m) : CutGood max dflt s T op p := by
  obtain ⟨u, u1, u2⟩ := upd_node h hl b2.par x
  refine .inl ⟨_, _, hr, h.upd hl u, hs, fun _ => u1, fun hc hp => u2 ?_ hp, fun i hi => hi.upd h hl u, fun hn => absurd ht hn⟩
  rcases hloc hc with rfl | hc
  · rw [hl] at hm; cases hm; rfl
  · exact par_siblings hp hl hm hc

theorem cut_assign {max : Nat} {dflt : α} {s : St α} {T : Var → AT α} (h : Inv s T .nil) (l m : Loc) (p : NPt) :
    CutGood max dflt s T (.assign l m) p := by
  cases hm : sub (T m.var) m.path with
  | none =>
    have hv : sub (valsT (T m.var)) m.path = none := by rw [← valsT_sub, hm]; rfl
    refine .inr ⟨cut_none h hm _, ?_⟩
    cases p <;> simp [ncutSpec, hv]
  | some n2 =>
    obtain ⟨b2, k2⟩ := n2
    have hv2 : sub (valsT (T m.var)) m.path = some (b2.val, vals k2) := by rw [← valsT_sub, hm]; rfl
    cases hl : sub (T l.var) l.path with
    | none =>
      have hv : sub (valsT (T l.var)) l.path = none := by rw [← valsT_sub, hl]; rfl
      refine .inr ⟨(cut_some h hm _).trans (cut_none h hl _), ?_⟩
      cases p <;> simp [ncutSpec, hv]
    | some n =>
      obtain ⟨b, k⟩ := n
      have hv : sub (valsT (T l.var)) l.path = some (b.val, vals k) := by rw [← valsT_sub, hl]; rfl
      have hr : ncut max dflt s (.assign l m) p = cutAssign s b.id b2.id p := (cut_some h hm _).trans (cut_some h hl _)
      cases p with
      | value =>
        refine cut_par h hl hm b.val ?_ ?_ trivial id
        · simp only [hr, cutAssign, cell_eq (h.at hm).1, change_eq (h.at hl).1, Res.bind_ok]
        · rw [vals_put_same (b' := ⟨b.id, b2.par, b.val⟩) hl rfl]
          simp only [ncutSpec, hv, hv2, Option.isSome_some, and_self, if_true]
      | slots =>
        refine cut_par h hl hm b2.val ?_ ?_ trivial id
        · simp only [hr, cutAssign, cell_eq (h.at hm).1, change_eq (h.at hl).1, Res.bind_ok]
        · rw [vals_put (T := T) (b := ⟨b.id, b2.par, b2.val⟩) (k := k) rfl rfl]
          simp only [ncutSpec, hv, hv2]
      | _ => exact .inr ⟨hr, rfl⟩

theorem cut_moveAssign {max : Nat} {dflt : α} {s : St α} {T : Var → AT α} (h : Inv s T .nil) (l m : Loc) (p : NPt) :
    CutGood max dflt s T (.moveAssign l m) p := by
  cases hm : sub (T m.var) m.path with
  | none =>
    have hv : sub (valsT (T m.var)) m.path = none := by rw [← valsT_sub, hm]; rfl
    refine .inr ⟨cut_none h hm _, ?_⟩
    cases p <;> simp [ncutSpec, hv]
  | some n2 =>
    obtain ⟨b2, k2⟩ := n2
    have hv2 : sub (valsT (T m.var)) m.path = some (b2.val, vals k2) := by rw [← valsT_sub, hm]; rfl
    cases hl : sub (T l.var) l.path with
    | none =>
      have hv : sub (valsT (T l.var)) l.path = none := by rw [← valsT_sub, hl]; rfl
      refine .inr ⟨(cut_some h hm _).trans (cut_none h hl _), ?_⟩
      cases p <;> simp [ncutSpec, hv]
    | some n =>
      obtain ⟨b, k⟩ := n
      have hv : sub (valsT (T l.var)) l.path = some (b.val, vals k) := by rw [← valsT_sub, hl]; rfl
      have hr : ncut max dflt s (.moveAssign l m) p = cutMove s b.id b2.id p := (cut_some h hm _).trans (cut_some h hl _)
      cases p with
      | value =>
        refine cut_par h hl hm b.val ?_ ?_ trivial id
        · simp only [hr, cutMove, cell_eq (h.at hm).1, change_eq (h.at hl).1, Res.bind_ok]
        · rw [vals_put_same (b' := ⟨b.id, b2.par, b.val⟩) hl rfl]
          simp only [ncutSpec, hv, hv2, Option.isSome_some, and_self, if_true]
      | _ => exact .inr ⟨hr, rfl⟩

theorem cut_addRoot {max : Nat} {dflt : α} {s : St α} {T : Var → AT α} (h : Inv s T .nil) (k : Nat) (x : α) (p : NPt) :
    CutGood max dflt s T (.addRoot k x) p := by
  cases p with
  | new =>
    obtain ⟨s1, e1, g1⟩ := reset_good h (.tree k)
    refine g1.cut ?_ ?_
    · simp only [ncut, e1, Res.bind_ok]
    · rw [valsT_setVar]; rfl
  | _ => exact .inr ⟨rfl, rfl⟩

/-- The new node of a copy. -/
theorem alloc_self (s : St α) (q : Ptr) (x : α) : (alloc s q x).mem s.next = some ⟨q, x, []⟩ := by rw [alloc_mem, if_pos rfl]

/-- A new node that nothing owns, changed afterwards. -/
theorem inv_leak_set {s : St α} {T : Var → AT α} (h : Inv s T .nil) (c : Cell α) (x : α) :
    Inv ((alloc s none x).set s.next c) T .nil ∧ (∀ i, Lost s T .nil i → Lost ((alloc s none x).set s.next c) T .nil i) ∧
      Lost ((alloc s none x).set s.next c) T .nil s.next := by
  obtain ⟨h1, h2, h3⟩ := inv_leak h none x
  have hold : ∀ v, ∀ i ∈ idsT (T v), ((alloc s none x).set s.next c).mem i = (alloc s none x).mem i := fun v i hi =>
    set_other _ _ (by have := h.lt_ids hi; omega)
  refine ⟨⟨fun v => rep_congr (h1.rep v) (hold v), h1.root, h1.nodup, h1.disj, fun i hi => ?_, trivial, List.nodup_nil, fun _ _ _ => by simp [ids]⟩,
    fun i hi => ?_, ⟨_, set_self _ _ _⟩, h3.2⟩
  · have hi : s.next + 1 ≤ i := hi
    rw [set_other _ _ (by omega)]
    exact h1.fresh i hi
  · obtain ⟨⟨c', hc⟩, h4, h5⟩ := h2 i hi
    by_cases e : i = s.next
    · subst e; exact ⟨⟨_, set_self _ _ _⟩, h4, h5⟩
    · exact ⟨⟨c', by rw [set_other _ _ e]; exact hc⟩, h4, h5⟩

theorem cut_copy {max : Nat} {dflt : α} {s : St α} {T : Var → AT α} (h : Inv s T .nil) (k j : Nat) (p : NPt) :
    CutGood max dflt s T (.copy k j) p := by
  cases hj : T (.tree j) with
  | none =>
    have hv : s.vars (.tree j) = none := by rw [h.root, hj]; rfl
    refine .inr ⟨by simp only [ncut, cutCopy, hv], ?_⟩
    have : valsT (none : AT α) = none := rfl
    cases p <;> simp [ncutSpec, hj, this]
  | some n =>
    obtain ⟨b, kj⟩ := n
    have hv : s.vars (.tree j) = some b.id := by rw [h.root, hj]; rfl
    have hval : valsT (some (b, kj)) = some (b.val, vals kj) := rfl
    have hsubj : sub (T (.tree j)) [] = some (b, kj) := by rw [sub_nil]; exact hj
    obtain ⟨cj, -⟩ := h.at hsubj
    have hlt := h.node_lt hsubj
    have hac : (alloc s none dflt).mem b.id = some ⟨b.par, b.val, ptrs kj⟩ := by rw [alloc_mem, if_neg (by omega), cj]
    have hkn : s.vars (.tree k) = none ↔ valsT (T (.tree k)) = none := by rw [h.root, ptrT_none, valsT_none]
    -- the assignment
    have hasg : ∀ (c : Cell α), ncut max dflt s (.copy k j) p =
          .ok (some (((alloc s none dflt).setVar (.tree k) (some s.next)).set s.next c)) → c.kids = [] →
        ncutSpec max dflt (fun v => valsT (T v)) (.copy k j) p = some (Spec.setVar (fun v => valsT (T v)) (.tree k) (some (c.val, .nil))) →
        (c.par = none ∨ c.par = b.par) → (p = .value ∨ p = .slots) → CutGood max dflt s T (.copy k j) p := by
      intro c hr hk0 hs hpar hp
      have g1 := good_alloc h dflt
      have g2 := good_swap g1.inv (.tree k)
      have i2 := inv_forget g2.inv (fun _ _ => rfl) rfl rfl
      have hsub : sub (Spec.setVar T (.tree k) (fresh s none dflt) (.tree k)) [] = some (⟨s.next, none, dflt⟩, .nil) := by
        rw [setVar_self, sub_nil]; rfl
      obtain ⟨u, u1, u2⟩ := upd_node i2 hsub c.par c.val
      have hcell : (⟨c.par, c.val, ptrs (.nil : AS α)⟩ : Cell α) = c := by
        obtain ⟨a, b, d⟩ := c
        simp only at hk0
        subst hk0
        rfl
      rw [hcell] at u u1
      have htidy : TidyCut s (.copy k j) p ↔ s.vars (.tree k) = none := by rcases hp with rfl | rfl <;> exact Iff.rfl
      refine .inl ⟨_, _, hr, i2.upd hsub u, ?_, fun ht hn => u1 ?_, fun _ hp' => u2 ?_ ⟨(g2.par (g1.par hp')).1, trivial⟩,
        fun i hi => (lost_forget (g2.lost i (g1.lost i hi))).upd i2 hsub u, fun hn => ?_⟩
      · rw [hs, setVar_setVar, put_nil, valsT_setVar]
        rfl
      · have hk : T (.tree k) = none := ptrT_none.1 (by rw [← h.root]; exact htidy.1 ht)
        have l2 := g2.leak (g1.leak hn)
        rw [hk] at l2
        exact l2
      · rcases hpar with e | e
        · exact e
        · have := hp'.1 (.tree j)
          rw [hj] at this
          rw [e, this.1]
      · obtain ⟨i, hi⟩ := lost_loose g2.inv fun hc => hn (htidy.2 (by rw [h.root, hc]; rfl))
        exact ⟨i, hi.upd i2 hsub u⟩
    -- the constructor
    have hctor : ∀ (c : Cell α), (s.vars (.tree k) = none → ncut max dflt s (.copy k j) p = .ok (some ((alloc s none dflt).set s.next c))) →
        (s.vars (.tree k) ≠ none → ncut max dflt s (.copy k j) p = .ok none) → (p = .valueNew ∨ p = .slotsNew) → CutGood max dflt s T (.copy k j) p := by
      intro c h1 h2 hp
      have hsp : ncutSpec max dflt (fun v => valsT (T v)) (.copy k j) p =
          if valsT (T (.tree k)) = none then some (fun v => valsT (T v)) else none := by
        rcases hp with rfl | rfl <;> simp only [ncutSpec, hj, hval, Option.isSome_some, true_and]
      by_cases hk : s.vars (.tree k) = none
      · obtain ⟨i1, i2, i3⟩ := inv_leak_set h c dflt
        refine .inl ⟨_, T, h1 hk, i1, by rw [hsp, if_pos (hkn.1 hk)], fun ht => ?_, fun _ => id, i2, fun _ => ⟨_, i3⟩⟩
        rcases hp with rfl | rfl <;> exact ht.elim
      · exact .inr ⟨h2 hk, by rw [hsp, if_neg fun hc => hk (hkn.2 hc)]⟩
    have hset : ∀ c, ((alloc s none dflt).setVar (.tree k) (some s.next)).set s.next c = ((alloc s none dflt).set s.next c).setVar (.tree k) (some s.next) :=
      fun _ => rfl
    have hc0 : ((alloc s none dflt).setVar (.tree k) (some s.next)).mem s.next = some ⟨none, dflt, []⟩ := alloc_self s none dflt
    by_cases e : k = j
    · subst e
      have hx : ((alloc s none dflt).setVar (.tree k) (some s.next)).vars (.tree k) = some s.next := by simp [St.setVar]
      cases p with
      | new =>
        refine (Good.refl h).cut ?_ ?_
        · simp only [ncut, cutCopy, hv]
        · simp only [ncutSpec, hj, hval, Option.isSome_some, if_true]
      | value =>
        refine hasg ⟨none, dflt, []⟩ ?_ rfl ?_ (.inl rfl) (.inl rfl)
        · simp only [ncut, cutCopy, hv, hx, cutAssign, cell_eq hc0, change_eq hc0, Res.bind_ok]
        · simp only [ncutSpec, hj, hval, Option.isSome_some, if_true]
      | slots =>
        refine hasg ⟨none, dflt, []⟩ ?_ rfl ?_ (.inl rfl) (.inr rfl)
        · simp only [ncut, cutCopy, hv, hx, cutAssign, cell_eq hc0, change_eq hc0, Res.bind_ok]
        · simp only [ncutSpec, hj, hval, if_true]
      | valueNew => exact hctor ⟨none, dflt, []⟩ (fun hc => by rw [hv] at hc; cases hc) (fun hc => by simp only [ncut, cutCopy, hv]; rfl) (.inl rfl)
      | slotsNew => exact hctor ⟨none, dflt, []⟩ (fun hc => by rw [hv] at hc; cases hc) (fun hc => by simp only [ncut, cutCopy, hv]; rfl) (.inr rfl)
      | grow => exact .inr ⟨by simp only [ncut, cutCopy, hv], rfl⟩
      | back => exact .inr ⟨by simp only [ncut, cutCopy, hv], rfl⟩
    · have hne : Var.tree j ≠ .tree k := fun hc => e (by injection hc with hc; exact hc.symm)
      have hx : ((alloc s none dflt).setVar (.tree k) (some s.next)).vars (.tree j) = some b.id := by
        rw [setVar_vars, if_neg hne]; exact hv
      have hcj : ((alloc s none dflt).setVar (.tree k) (some s.next)).mem b.id = some ⟨b.par, b.val, ptrs kj⟩ := hac
      cases p with
      | new =>
        refine (Good.refl h).cut ?_ ?_
        · simp only [ncut, cutCopy, hv]
        · simp only [ncutSpec, hj, hval, Option.isSome_some, if_true]
      | value =>
        refine hasg ⟨b.par, dflt, []⟩ ?_ rfl ?_ (.inr rfl) (.inl rfl)
        · simp only [ncut, cutCopy, hv, hx, cutAssign, cell_eq hcj, change_eq hc0, Res.bind_ok]
        · simp only [ncutSpec, hj, hval, Option.isSome_some, if_true]
      | slots =>
        refine hasg ⟨b.par, b.val, []⟩ ?_ rfl ?_ (.inr rfl) (.inr rfl)
        · simp only [ncut, cutCopy, hv, hx, cutAssign, cell_eq hcj, change_eq hc0, Res.bind_ok]
        · simp only [ncutSpec, hj, hval, e, if_false]
      | valueNew =>
        refine hctor ⟨b.par, dflt, []⟩ (fun hc => ?_) (fun hc => ?_) (.inl rfl)
        · simp only [ncut, cutCopy, hv, hc, if_true, cutAssign, cell_eq hac, change_eq (alloc_self s none dflt), Res.bind_ok]
        · simp only [ncut, cutCopy, hv, hc, if_false]
      | slotsNew =>
        refine hctor ⟨b.par, b.val, []⟩ (fun hc => ?_) (fun hc => ?_) (.inr rfl)
        · simp only [ncut, cutCopy, hv, hc, if_true, cutAssign, cell_eq hac, change_eq (alloc_self s none dflt), Res.bind_ok]
        · simp only [ncut, cutCopy, hv, hc, if_false]
      | grow => exact .inr ⟨by simp only [ncut, cutCopy, hv], rfl⟩
      | back => exact .inr ⟨by simp only [ncut, cutCopy, hv], rfl⟩

/-- Every statement at every point. -/
theorem ncut_good {max : Nat} {dflt : α} {s : St α} {T : Var → AT α} (h : Inv s T .nil) (op : NOp α) (p : NPt) : CutGood max dflt s T op p := by
  cases op with
  | addRoot k x => exact cut_addRoot h k x p
  | addChild l x => exact cut_add h l x p
  | insertFirstNull l x => exact cut_firstNull h l x p
  | insertAt l pos x => exact cut_insertAt h l pos x p
  | replaceAt l pos x u => exact cut_replaceAt h l pos x u p
  | setValue l x => exact cut_setValue h l x p
  | swapValues l m => exact cut_swap h l m p
  | assign l m => exact cut_assign h l m p
  | moveAssign l m => exact cut_moveAssign h l m p
  | copy k j => exact cut_copy h k j p
  | _ => exact .inr ⟨rfl, rfl⟩

end Verif.NMem
