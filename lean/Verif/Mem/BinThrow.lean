import Verif.Mem.BinProps

/-!
Programs over plain binary trees (structures/binary_tree.h) in which allocations and copies of elements throw.

* A statement gets the number of throwing operations (`new`, copies and assignments of elements) that it may still do; the next one
  throws.  If the statement does not come to it, it is executed as usual.
* The program catches the exception and goes on.  What was changed before the exception stays.
* An allocation or an assignment of an element that throws has no effect itself.  Destructors do not throw.
-/

namespace Verif.Mem
open Avl (Tree)
open Avl.Spec (ParentsExact)
open Spec
variable {α : Type}

/-- When a statement throws: after `n` operations that could throw; `ctor`: the copy of a tree is its construction. -/
structure Fault where
  n : Nat
  ctor : Bool
deriving DecidableEq, Repr

/-! ### What is left behind -/

def Cell.side (b : Bool) (c : Cell α) : Ptr := if b then c.right else c.left
def Cell.setSide (b : Bool) (p : Ptr) (c : Cell α) : Cell α := if b then { c with right := p } else { c with left := p }

/-- binary_tree.h:158-162 and 163-167: the copy of a child with `f`.  Returns what is left of `n`, or `none` after an exception. -/
def copySide (f : Nat → St α → Nat → Nat → Res (Option Nat × St α)) (dflt : α) (b : Bool) (n : Nat) (s : St α) (dst src : Nat) :
    Res (Option Nat × St α) := do
  let c ← cell s src
  match c.side b with
  | none => .ok (some n, s)
  | some _ =>
    match n with
    | 0 => .ok (none, s)  -- `new` throws
    | n + 1 => do
      let (j, s) := alloc s none dflt
      let s ← change s dst (Cell.setSide b (some j))
      let c ← cell s src
      match c.side b with
      | none => .exc .invalidNode
      | some l => do
        let (a, s) ← f n s j l
        match a with
        | none => .ok (none, s)
        | some m => do
          let d ← cell s dst
          match d.side b with
          | none => .ub
          | some j => do
            let s ← change s j fun k => { k with par := some dst }
            .ok (some m, s)

/-- binary_tree.h:155-171 `*dst = *src` for two nodes. -/
def copyNodeT (dflt : α) : Nat → Nat → St α → Nat → Nat → Res (Option Nat × St α)
  | 0, _, _, _, _ => .ub
  | fuel + 1, n, s, dst, src => do
    let s ← clearNode fuel s dst
    let (a, s) ← copySide (copyNodeT dflt fuel) dflt false n s dst src
    match a with
    | none => .ok (none, s)
    | some n => do
      let (a, s) ← copySide (copyNodeT dflt fuel) dflt true n s dst src
      match a with
      | none => .ok (none, s)
      | some 0 => .ok (none, s)  -- the assignment of the value throws
      | some (n + 1) => do
        let c ← cell s src
        let s ← change s dst fun d => { d with val := c.val }
        .ok (some n, s)

/-- binary_tree.h:181-196: `*dst = std::move(*src)` up to the assignment of the value. -/
def moveNodeT (fuel : Nat) (s : St α) (dst src : Nat) : Res (St α) := do
  let s ← clearNode fuel s dst
  let c ← cell s src
  let s ← change s dst fun d => { d with left := c.left }
  let c ← cell s src
  let s ← change s dst fun d => { d with right := c.right }
  let s ← change s src fun c => { c with left := none, right := none }
  let s ← change s src fun c => { c with par := none }
  let d ← cell s dst
  let s ← (match d.left with
    | some l => change s l fun c => { c with par := some dst }
    | none => .ok s)
  let d ← cell s dst
  match d.right with
    | some r => change s r fun c => { c with par := some dst }
    | none => .ok s

/-- The state after the exception, or `none` if the copy did not come to it. -/
def cutState (r : Res (Option Nat × St α)) : Res (Option (St α)) := do
  let (a, s) ← r
  .ok (if a = none then some s else none)

/-- tree.h:916-923 `*k = *j` for two tree objects, and the copy constructor (898-900): when it throws, its `_root` is gone. -/
def copyTreeT (dflt : α) (s : St α) (k j : Nat) (f : Fault) : Res (Option (St α)) :=
  match s.roots j with
  | none => .ok none
  | some _ =>
    match f.n with
    | 0 => .ok (some s)
    | n + 1 =>
      let s1 := (alloc s none dflt).2.setRoot k (some s.next)
      match s1.roots j with
      | none => .exc .invalidNode
      | some src => do
        let r ← cutState (copyNodeT dflt s.fuel n s1 s.next src)
        .ok (if f.ctor = true ∧ s.roots k = none then r.map (·.setRoot k none) else r)

/-- tree.h:124-130 `swap` of node `i` and its child: three copies. -/
def swapT (s : St α) (i : Nat) (child : Ptr) (n : Nat) : Res (Option (St α)) :=
  match child with
  | none => .ok none
  | some l =>
    match n with
    | 0 | 1 => .ok (some s)
    | 2 => do
      let c ← cell s i
      let s ← change s l fun d => { d with val := c.val }
      .ok (some s)
    | _ => .ok none

/-- Get a node and go on with it; a statement about a node that is not there does not throw otherwise. -/
def bonCut (s : St α) (k : Nat) (p : List Bool) (f : Nat → Res (Option (St α))) : Res (Option (St α)) :=
  match resolve s (s.roots k) p with
  | .ok i => f i
  | .exc _ => .ok none
  | .ub => .ub

/-- The state when the statement throws; `none` if it does not come to the point. -/
def bcut (dflt : α) (s : St α) (op : BOp α) (f : Fault) : Res (Option (St α)) :=
  match op with
  | .addRoot k _ =>  -- tree.h:1033-1038
    if f.n = 0 then do
      let s ← deleteRoot s k
      .ok (some s)
    else .ok none
  | .addLeft k p _ => bonCut s k p fun i => do  -- binary_tree.h:221-227
    let c ← cell s i
    .ok (if c.left = none ∧ f.n = 0 then some s else none)
  | .addRight k p _ => bonCut s k p fun i => do  -- binary_tree.h:237-243
    let c ← cell s i
    .ok (if c.right = none ∧ f.n = 0 then some s else none)
  | .setValue k p _ => bonCut s k p fun _ => .ok (if f.n = 0 then some s else none)  -- tree.h:94-106
  | .swap k p dir => bonCut s k p fun i => do  -- binary_tree.h:283-299
    let c ← cell s i
    match dir with
    | 0 => swapT s i c.left f.n
    | 1 => swapT s i c.right f.n
    | _ => .ok none
  | .assign k p j q => bonCut s j q fun src => bonCut s k p fun dst => cutState (copyNodeT dflt s.fuel f.n s dst src)
  | .moveAssign k p j q => bonCut s j q fun src => bonCut s k p fun dst =>
    if f.n = 0 then do
      let s ← moveNodeT s.fuel s dst src
      .ok (some s)
    else .ok none
  | .copy k j => copyTreeT dflt s k j f
  | .deleteChild _ _ _ | .clearNode _ _ | .clear _ | .move _ _ => .ok none

/-- A statement, with or without exception; the result is `none` when it throws. -/
def bstepT (dflt : α) (s : St α) (op : BOp α) : Option Fault → Res (Option BOut × St α)
  | none => do
    let (o, s) ← bstep dflt s op
    .ok (some o, s)
  | some f => do
    match ← bcut dflt s op f with
    | some s' => .ok (none, s')
    | none => do
      let (o, s) ← bstep dflt s op
      .ok (some o, s)

def brunT (dflt : α) (s : St α) : List (BOp α × Option Fault) → Res (List (Option BOut) × St α)
  | [] => .ok ([], s)
  | (op, f) :: ops => do
    let (o, s) ← bstepT dflt s op f
    let (os, s) ← brunT dflt s ops
    .ok (o :: os, s)

namespace Spec

/-- The children are copied from left to right, then the value; until then the node has the value `old`. -/
def partBody (old v : α) (a : Option Nat × BT α) (g : Nat → Option Nat × BT α) : Option Nat × BT α :=
  match a with
  | (none, l) => (none, .node old l .nil)
  | (some n, l) =>
    match g n with
    | (none, r) => (none, .node old l r)
    | (some 0, r) => (none, .node old l r)
    | (some (n + 1), r) => (some n, .node v l r)

/-- What is there of the copy of a child after `n` operations, and how many are left. -/
def partChild (dflt : α) : Nat → BT α → Option Nat × BT α
  | n, .nil => (some n, .nil)
  | 0, .node _ _ _ => (none, .nil)
  | n + 1, .node v l r => partBody dflt v (partChild dflt n l) fun m => partChild dflt m r

/-- The same for a node that had the value `old`. -/
def partNode (dflt : α) (n : Nat) (old : α) : BT α → Option Nat × BT α
  | .nil => (some n, .nil)
  | .node v l r => partBody old v (partChild dflt n l) fun m => partChild dflt m r

/-- The exception comes from one of the operations on the node itself: the `new` of a child or the assignment of the value, not from within the copy of
a child. -/
def AtTop (dflt : α) (n : Nat) : BT α → Prop
  | .nil => True
  | .node _ l r => (∀ t, partChild dflt n l = (none, t) → t = .nil) ∧
    ∀ m t u, partChild dflt n l = (some m, t) → partChild dflt m r = (none, u) → u = .nil

/-- What a statement that throws leaves behind, on values; `none` if it does not come to the point. -/
def bcutSpec (dflt : α) (S : Nat → BT α) (op : BOp α) (f : Fault) : Option (Nat → BT α) :=
  match op with
  -- the tree is gone
  | .addRoot k _ => if f.n = 0 then some (setTree S k .nil) else none
  -- nothing happens
  | .addLeft k p _ =>
    match (S k).at p with
    | .node _ .nil _ => if f.n = 0 then some S else none
    | _ => none
  | .addRight k p _ =>
    match (S k).at p with
    | .node _ _ .nil => if f.n = 0 then some S else none
    | _ => none
  | .setValue k p _ =>
    match (S k).at p with
    | .node _ _ _ => if f.n = 0 then some S else none
    | .nil => none
  -- the value of the child is lost
  | .swap k p dir =>
    match (S k).at p, dir with
    | .node v (.node _ a b) r, 0 =>
      if f.n < 2 then some S else if f.n = 2 then some (setTree S k ((S k).put p (.node v (.node v a b) r))) else none
    | .node v l (.node _ a b), 1 =>
      if f.n < 2 then some S else if f.n = 2 then some (setTree S k ((S k).put p (.node v l (.node v a b)))) else none
    | _, _ => none
  -- the node has a part of the children of the other one, and its own value
  | .assign k p j q =>
    match (S j).at q, (S k).at p with
    | .node v l r, .node old _ _ =>
      match partNode dflt f.n old (.node v l r) with
      | (none, t) => some (setTree S k ((S k).put p t))
      | (some _, _) => none
    | _, _ => none
  -- the node has the children of the other one, and its own value
  | .moveAssign k p j q =>
    match (S j).at q, (S k).at p with
    | .node v l r, .node old _ _ =>
      if f.n = 0 then
        let S := setTree S j ((S j).put q (.node v .nil .nil))
        some (setTree S k ((S k).put p (.node old l r)))
      else none
    | _, _ => none
  -- the tree is a part of the other one; nothing, if it is constructed
  | .copy k j =>
    match S j with
    | .nil => none
    | .node v l r =>
      match f.n with
      | 0 => some S
      | n + 1 =>
        match partNode dflt n dflt (.node v l r) with
        | (none, t) =>
          match f.ctor, S k with
          | true, .nil => some S
          | _, _ => some (setTree S k t)
        | (some _, _) => none
  | .deleteChild _ _ _ | .clearNode _ _ | .clear _ | .move _ _ => none

/-- A statement with or without exception. -/
def bspecT (dflt : α) (S : Nat → BT α) (op : BOp α) : Option Fault → Option BOut × (Nat → BT α)
  | none => (some (bspec S op).1, (bspec S op).2)
  | some f =>
    match bcutSpec dflt S op f with
    | some S' => (none, S')
    | none => (some (bspec S op).1, (bspec S op).2)

def brunTSpec (dflt : α) (S : Nat → BT α) : List (BOp α × Option Fault) → List (Option BOut) × (Nat → BT α)
  | [] => ([], S)
  | (op, f) :: ops => ((bspecT dflt S op f).1 :: (brunTSpec dflt (bspecT dflt S op f).2 ops).1, (brunTSpec dflt (bspecT dflt S op f).2 ops).2)

/-- `P` for a statement that does not throw, `Q` for one that does. -/
def BEither (dflt : α) (P : St α → BOp α → Prop) (Q : St α → BOp α → Fault → Prop) (s : St α) (op : BOp α) : Option Fault → Prop
  | none => P s op
  | some f =>
    match bcut dflt s op f with
    | .ok (some _) => Q s op f
    | _ => P s op

/-- Every statement is allowed in the state where it is executed. -/
def BAlwaysT (dflt : α) (P : St α → BOp α → Prop) (Q : St α → BOp α → Fault → Prop) (s : St α) : List (BOp α × Option Fault) → Prop
  | [] => True
  | (op, f) :: ops => BEither dflt P Q s op f ∧ ∀ o s', bstepT dflt s op f = .ok (o, s') → BAlwaysT dflt P Q s' ops

/-- Node assignments are between separate nodes, trees are not assigned to themselves, and empty trees are not copied to other ones. -/
def BFaithful (s : St α) : BOp α → Prop
  | .copy k j => k ≠ j ∧ (s.roots j = none → s.roots k = none)
  | .move k j => k ≠ j
  | op => NodeSane op

/-- A copy of a tree that throws loses nodes, unless no node was made, or the tree was empty and still exists. -/
def BTidyCut (s : St α) : BOp α → Fault → Prop
  | .copy k _, f => f.n = 0 ∨ s.roots k = none ∧ f.ctor = false
  | .moveAssign k p j q, _ => Tidy s (.moveAssign k p j q)
  | _, _ => True

/-- Node assignments are between separate nodes, and only roots are moved from. -/
def BLocal (_ : St α) (op : BOp α) : Prop := NodeSane op ∧ MovesRoots op

/-- The same, and the copy of no child is interrupted. -/
def BLocalCut (dflt : α) (s : St α) : BOp α → Fault → Prop
  | .assign k p j q, f => Separate k p j q ∧ ∀ i t, follow s (s.roots j) q = some i → Looks s (some i) t → AtTop dflt f.n t
  | .copy k j, f => ∀ n t, f.n = n + 1 → ¬ (f.ctor = true ∧ s.roots k = none) → Looks s (s.roots j) t → AtTop dflt n t
  | op, _ => NodeSane op ∧ MovesRoots op

end Spec

/-! ### Copying with an exception -/

/-- What the copy of a child does. -/
structure SideOk (s : St α) (dst : Nat) (d : Cell α) (b : Bool) (a : Option Nat) (s' : St α) (u : Tree α) : Prop where
  rep : Rep s'.mem u
  nodup : (ids u).Nodup
  cell : s'.mem dst = some (d.setSide b (ptr u))
  roots : s'.roots = s.roots
  next : s.next ≤ s'.next
  ids : ∀ j ∈ ids u, s.next ≤ j
  frame : ∀ j, j ≠ dst → j ∉ Mem.ids u → s'.mem j = s.mem j
  fresh : Fresh s'
  par : (a = none → u = .nil) → ParentsExact (some dst) u

structure NodeOk (s : St α) (dst : Nat) (p : Ptr) (h : Nat) (a : Option Nat) (s' : St α) (w : α) (l r : Tree α) : Prop where
  rep : Rep s'.mem (.node dst p w h l r)
  nodup : (ids (.node dst p w h l r)).Nodup
  roots : s'.roots = s.roots
  next : s.next ≤ s'.next
  ids : ∀ j ∈ ids l ++ ids r, s.next ≤ j
  frame : ∀ j, j ≠ dst → j ∉ Mem.ids l → j ∉ Mem.ids r → s'.mem j = s.mem j
  fresh : Fresh s'
  par : a ≠ none → ParentsExact (some dst) l ∧ ParentsExact (some dst) r

theorem fresh_lt {s : St α} (hf : Fresh s) {i : Nat} {c : Cell α} (h : s.mem i = some c) : i < s.next := by
  by_contra hc
  rw [hf i (by omega)] at h
  cases h

theorem rep_lt {s : St α} (hf : Fresh s) {t : Tree α} (h : Rep s.mem t) {i : Nat} (hi : i ∈ ids t) : i < s.next := by
  obtain ⟨c, hc⟩ := h.some hi
  exact fresh_lt hf hc

@[simp] theorem side_setSide (b : Bool) (p : Ptr) (c : Cell α) : (c.setSide b p).side b = p := by cases b <;> rfl

theorem setSide_setSide (b : Bool) (p q : Ptr) (c : Cell α) : (c.setSide b p).setSide b q = c.setSide b q := by cases b <;> rfl

theorem setSide_same {b : Bool} {c : Cell α} {p : Ptr} (h : c.side b = p) : c.setSide b p = c := by
  subst h
  cases b <;> rfl

/-- The copies of nodes by `f` are right. -/
def CopiesNode (dflt : α) (f : Nat → St α → Nat → Nat → Res (Option Nat × St α)) (t : Tree α) : Prop :=
  ∀ (n : Nat) (s : St α) (dst si : Nat) (sp : Ptr) (sv : α) (sh : Nat) (l r : Tree α) (p : Ptr) (v0 : α) (h0 : Nat), t = .node si sp sv sh l r →
    s.mem dst = some ⟨p, v0, h0, none, none⟩ → dst ∉ ids t → Rep s.mem t → Fresh s →
    ∃ a s' w l' r', f n s dst si = .ok (a, s') ∧ NodeOk s dst p h0 a s' w l' r' ∧
      (a, BT.node w (erase l') (erase r')) = partNode dflt n v0 (erase t) ∧
      (AtTop dflt n (erase t) → ParentsExact (some dst) l' ∧ ParentsExact (some dst) r')

theorem copySide_ok (dflt : α) {f : Nat → St α → Nat → Nat → Res (Option Nat × St α)} {t : Tree α} (hf : CopiesNode dflt f t) (b : Bool) (n : Nat)
    {s : St α} {dst src : Nat} {d c : Cell α} (hd : s.mem dst = some d) (hdb : d.side b = none) (hc : s.mem src = some c) (hcb : c.side b = ptr t)
    (hne : dst ≠ src) (hr : Rep s.mem t) (hdt : dst ∉ ids t) (hfr : Fresh s) :
    ∃ a s' u, copySide f dflt b n s dst src = .ok (a, s') ∧ SideOk s dst d b a s' u ∧ (a, erase u) = partChild dflt n (erase t) := by
  cases t with
  | nil =>
    refine ⟨some n, s, .nil, ?_, ⟨trivial, List.nodup_nil, ?_, rfl, Nat.le_refl _, (fun _ h => by cases h), fun _ _ _ => rfl, hfr, fun _ => trivial⟩, ?_⟩
    · simp only [copySide, cell_eq hc, Res.bind_ok, hcb, ptr]
    · rw [hd, ptr, setSide_same hdb]
    · simp only [erase, partChild]
  | node li lp lv lh ll lr =>
    cases n with
    | zero =>
      refine ⟨none, s, .nil, ?_, ⟨trivial, List.nodup_nil, ?_, rfl, Nat.le_refl _, (fun _ h => by cases h), fun _ _ _ => rfl, hfr, fun _ => trivial⟩, ?_⟩
      · simp only [copySide, cell_eq hc, Res.bind_ok, hcb, ptr]
      · rw [hd, ptr, setSide_same hdb]
      · simp only [erase, partChild]
    | succ n =>
      have hdn := fresh_lt hfr hd
      have hcn := fresh_lt hfr hc
      generalize hs1 : (alloc s none dflt).2.set dst (d.setSide b (some s.next)) = s1
      have m1 : ∀ i, i ≠ s.next → i ≠ dst → s1.mem i = s.mem i := fun i h1 h2 => by
        rw [← hs1, mem_set_ne _ h2, mem_alloc_ne _ _ _ h1]
      have md : s1.mem dst = some (d.setSide b (some s.next)) := by rw [← hs1, mem_set_self]
      have mn : s1.mem s.next = some ⟨none, dflt, 1, none, none⟩ := by rw [← hs1, mem_set_ne _ (by omega), mem_alloc_self]
      have x1 : s1.next = s.next + 1 := by rw [← hs1]; rfl
      have q1 : s1.roots = s.roots := by rw [← hs1]; rfl
      have hc1 : s1.mem src = some c := by rw [m1 src (by omega) (Ne.symm hne), hc]
      have hfr1 : Fresh s1 := fun i hi => by rw [m1 i (by omega) (by omega), hfr i (by omega)]
      have hlt : ∀ i ∈ ids (.node li lp lv lh ll lr), i < s.next := fun i hi => rep_lt hfr hr hi
      obtain ⟨a, s2, w, l', r', e2, ok, hp, -⟩ := hf n s1 s.next li lp lv lh ll lr none dflt 1 rfl mn (fun hi => by have := hlt _ hi; omega)
        (hr.congr fun i hi => m1 i (by have := hlt i hi; omega) (by rintro rfl; exact hdt hi)) hfr1
      have hdu : dst ∉ ids l' ∧ dst ∉ ids r' := by
        constructor <;> intro hi
        · have := ok.ids dst (List.mem_append_left _ hi); omega
        · have := ok.ids dst (List.mem_append_right _ hi); omega
      have md2 : s2.mem dst = some (d.setSide b (some s.next)) := by rw [ok.frame dst (by omega) hdu.1 hdu.2, md]
      have hchange : change (alloc s none dflt).2 dst (Cell.setSide b (some s.next)) = .ok s1 := by
        rw [change_eq (by rw [mem_alloc_ne _ _ _ (by omega)]; exact hd), hs1]
      have hspec : (a, BT.node w (erase l') (erase r')) = partChild dflt (n + 1) (erase (.node li lp lv lh ll lr)) := hp
      have hids : ∀ j ∈ ids (.node s.next none w 1 l' r'), s.next ≤ j := fun j hj => by
        simp only [ids, List.mem_cons] at hj
        rcases hj with rfl | hj
        · exact Nat.le_refl _
        · have := ok.ids j hj; omega
      cases a with
      | none =>
        refine ⟨none, s2, .node s.next none w 1 l' r', ?_, ⟨ok.rep, ok.nodup, md2, by rw [ok.roots, q1], by have := ok.next; omega, hids,
          fun j h1 h2 => ?_, ok.fresh, fun hn => absurd (hn rfl) (by simp)⟩, hspec⟩
        · simp only [copySide, cell_eq hc, Res.bind_ok, hcb, ptr]
          show (do
            let s' ← change (alloc s none dflt).2 dst (Cell.setSide b (some s.next))
            let c ← cell s' src
            match c.side b with
            | none => .exc .invalidNode
            | some l => do
              let (a, s) ← f n s' s.next l
              match a with
              | none => .ok (none, s)
              | some m => do
                let d ← cell s dst
                match d.side b with
                | none => .ub
                | some j => do
                  let s ← change s j fun k => { k with par := some dst }
                  .ok (some m, s) : Res (Option Nat × St α)) = _
          simp only [hchange, Res.bind_ok, cell_eq hc1, hcb, ptr, e2]
        · simp only [ids, List.mem_cons, List.mem_append, not_or] at h2
          rw [ok.frame j h2.1 h2.2.1 h2.2.2, m1 j h2.1 h1]
      | some m =>
        have hj2 : s2.mem s.next = some ⟨none, w, 1, ptr l', ptr r'⟩ := ok.rep.1
        obtain ⟨n1, n2, n3, n4, n5⟩ := nodup_node.1 ok.nodup
        refine ⟨some m, s2.set s.next ⟨some dst, w, 1, ptr l', ptr r'⟩, .node s.next (some dst) w 1 l' r', ?_,
          ⟨⟨mem_set_self _ _ _, rep_set n1 ok.rep.2.1, rep_set n2 ok.rep.2.2⟩, ok.nodup, ?_, by rw [← q1, ← ok.roots]; rfl, ?_, hids,
            fun j h1 h2 => ?_, fun j hj => ?_, fun _ => ⟨rfl, (ok.par (by simp)).1, (ok.par (by simp)).2⟩⟩, hspec⟩
        · simp only [copySide, cell_eq hc, Res.bind_ok, hcb, ptr]
          show (do
            let s' ← change (alloc s none dflt).2 dst (Cell.setSide b (some s.next))
            let c ← cell s' src
            match c.side b with
            | none => .exc .invalidNode
            | some l => do
              let (a, s) ← f n s' s.next l
              match a with
              | none => .ok (none, s)
              | some m => do
                let d ← cell s dst
                match d.side b with
                | none => .ub
                | some j => do
                  let s ← change s j fun k => { k with par := some dst }
                  .ok (some m, s) : Res (Option Nat × St α)) = _
          simp only [hchange, Res.bind_ok, cell_eq hc1, hcb, ptr, e2, cell_eq md2, side_setSide, change_eq hj2]
        · rw [mem_set_ne _ (by omega), md2]; rfl
        · have := ok.next
          show s.next ≤ s2.next
          omega
        · simp only [ids, List.mem_cons, List.mem_append, not_or] at h2
          rw [mem_set_ne _ h2.1, ok.frame j h2.1 h2.2.1 h2.2.2, m1 j h2.1 h1]
        · have hj : s2.next ≤ j := hj
          have := ok.next
          rw [mem_set_ne _ (by omega), ok.fresh j hj]

theorem copyNodeT_ok (dflt : α) (t : Tree α) : ∀ fuel, sz t ≤ fuel → CopiesNode dflt (copyNodeT dflt fuel) t := by
  induction t with
  | nil => intro _ _ _ _ _ _ _ _ _ _ _ _ _ _ ht; cases ht
  | node si sp sv sh l r ihl ihr =>
    intro fuel hfu n s dst si' sp' sv' sh' l' r' p v0 h0 ht hd hdt hr hf
    cases ht
    simp only [sz] at hfu
    obtain ⟨fuel, rfl⟩ : ∃ f, fuel = f + 1 := ⟨fuel - 1, by omega⟩
    simp only [ids, List.mem_cons, List.mem_append, not_or] at hdt
    obtain ⟨hds, hdl, hdr⟩ := hdt
    have hdn := fresh_lt hf hd
    have hsn := fresh_lt hf hr.1
    obtain ⟨a1, s1, u1, e1, k1, p1⟩ := copySide_ok dflt (ihl fuel (by omega)) false n hd rfl hr.1 rfl hds hr.2.1 hdl hf
    have hdu1 : dst ∉ ids u1 := fun hc => by have := k1.ids _ hc; omega
    have m1 : s1.mem dst = some ⟨p, v0, h0, ptr u1, none⟩ := k1.cell
    have hs1 : s1.mem si = some ⟨sp, sv, sh, ptr l, ptr r⟩ := by
      rw [k1.frame si (Ne.symm hds) fun hc => by have := k1.ids _ hc; omega]
      exact hr.1
    cases a1 with
    | none =>
      refine ⟨none, s1, v0, u1, .nil, ?_, ⟨⟨m1, k1.rep, trivial⟩, ?_, k1.roots, k1.next, ?_, fun j h1 h2 _ => k1.frame j h1 h2, k1.fresh,
        fun hn => absurd rfl hn⟩, ?_, fun ht => ?_⟩
      · simp only [copyNodeT, clearNode_leaf fuel hd, Res.bind_ok, e1]
      · exact nodup_node.2 ⟨hdu1, by simp [ids], k1.nodup, by simp [ids], by simp [ids]⟩
      · simpa [ids] using k1.ids
      · simp only [partNode, erase, ← p1, partBody]
      · rw [erase_nil.1 (ht.1 _ p1.symm)]
        exact ⟨trivial, trivial⟩
    | some m =>
      obtain ⟨a2, s2, u2, e2, k2, p2⟩ := copySide_ok dflt (ihr fuel (by omega)) true m m1 rfl hs1 rfl hds
        (hr.2.2.congr fun j hj => k1.frame j (by rintro rfl; exact hdr hj) fun hc => by have := k1.ids _ hc; have := rep_lt hf hr.2.2 hj; omega) hdr k1.fresh
      have x1 := k1.next
      have hdu2 : dst ∉ ids u2 := fun hc => by have := k2.ids _ hc; omega
      have h12 : ∀ j ∈ ids u1, j ∉ ids u2 := fun j h1 h2 => by have := k2.ids _ h2; have := rep_lt k1.fresh k1.rep h1; omega
      have m2 : s2.mem dst = some ⟨p, v0, h0, ptr u1, ptr u2⟩ := k2.cell
      have r1 : Rep s2.mem u1 := k1.rep.congr fun j hj => k2.frame j (by rintro rfl; exact hdu1 hj) (h12 j hj)
      have hnd : ∀ w : α, (ids (.node dst p w h0 u1 u2)).Nodup := fun w => nodup_node.2 ⟨hdu1, hdu2, k1.nodup, k2.nodup, h12⟩
      have hids : ∀ j ∈ ids u1 ++ ids u2, s.next ≤ j := fun j hj => by
        rcases List.mem_append.1 hj with h | h
        · exact k1.ids j h
        · have := k2.ids j h; omega
      have hframe : ∀ j, j ≠ dst → j ∉ ids u1 → j ∉ ids u2 → s2.mem j = s.mem j := fun j h1 h2 h3 => by
        rw [k2.frame j h1 h3, k1.frame j h1 h2]
      have hx : s.next ≤ s2.next := Nat.le_trans x1 k2.next
      have hq : s2.roots = s.roots := k2.roots.trans k1.roots
      match a2, e2, k2, p2 with
      | none, e2, k2, p2 =>
        refine ⟨none, s2, v0, u1, u2, ?_, ⟨⟨m2, r1, k2.rep⟩, hnd _, hq, hx, hids, hframe, k2.fresh, fun hn => absurd rfl hn⟩, ?_, fun ht => ?_⟩
        · simp only [copyNodeT, clearNode_leaf fuel hd, Res.bind_ok, e1, e2]
        · simp only [partNode, erase, ← p1, partBody, ← p2]
        · rw [erase_nil.1 (ht.2 _ _ _ p1.symm p2.symm)]
          exact ⟨k1.par (by simp), trivial⟩
      | some 0, e2, k2, p2 =>
        refine ⟨none, s2, v0, u1, u2, ?_, ⟨⟨m2, r1, k2.rep⟩, hnd _, hq, hx, hids, hframe, k2.fresh, fun hn => absurd rfl hn⟩, ?_, fun ht => ?_⟩
        · simp only [copyNodeT, clearNode_leaf fuel hd, Res.bind_ok, e1, e2]
        · simp only [partNode, erase, ← p1, partBody, ← p2]
        · exact ⟨k1.par (by simp), k2.par (by simp)⟩
      | some (b + 1), e2, k2, p2 =>
        have hs2 : s2.mem si = some ⟨sp, sv, sh, ptr l, ptr r⟩ := by
          rw [k2.frame si (Ne.symm hds) fun hc => by have := k2.ids _ hc; omega]
          exact hs1
        refine ⟨some b, s2.set dst ⟨p, sv, h0, ptr u1, ptr u2⟩, sv, u1, u2, ?_, ⟨⟨mem_set_self _ _ _, rep_set hdu1 r1, rep_set hdu2 k2.rep⟩, hnd _, hq, hx,
          hids, fun j h1 h2 h3 => ?_, fun j hj => ?_, fun _ => ⟨k1.par (by simp), k2.par (by simp)⟩⟩, ?_,
          fun _ => ⟨k1.par (by simp), k2.par (by simp)⟩⟩
        · simp only [copyNodeT, clearNode_leaf fuel hd, Res.bind_ok, e1, e2, cell_eq hs2, change_eq m2]
        · rw [mem_set_ne _ h1, hframe j h1 h2 h3]
        · have hj : s2.next ≤ j := hj
          rw [mem_set_ne _ (by omega), k2.fresh j hj]
        · simp only [partNode, erase, ← p1, partBody, ← p2]

/-- A copy that does not come to the exception is the usual one. -/
theorem copySide_some (dflt : α) {f : Nat → St α → Nat → Nat → Res (Option Nat × St α)} {g : St α → Nat → Nat → Res (St α)}
    (hfg : ∀ n s dst src m s', f n s dst src = .ok (some m, s') → g s dst src = .ok s') {b : Bool} {n : Nat} {s : St α} {dst src : Nat} {m : Nat} {s' : St α}
    (h : copySide f dflt b n s dst src = .ok (some m, s')) :
    (do
      let c ← cell s src
      match c.side b with
      | none => .ok s
      | some _ => do
        let (j, s) := alloc s none dflt
        let s ← change s dst (Cell.setSide b (some j))
        let c ← cell s src
        match c.side b with
        | none => .exc .invalidNode
        | some l => do
          let s ← g s j l
          let d ← cell s dst
          match d.side b with
          | none => .ub
          | some j => change s j fun k => { k with par := some dst } : Res (St α)) = .ok s' := by
  simp only [copySide, Res.bind_eq_ok] at h
  obtain ⟨c, hc, h⟩ := h
  simp only [hc, Res.bind_ok]
  cases hb : c.side b with
  | none =>
    rw [hb] at h
    cases h
    rfl
  | some l0 =>
    rw [hb] at h
    cases n with
    | zero => cases h
    | succ n =>
      simp only [Res.bind_eq_ok] at h ⊢
      obtain ⟨s1, h1, c1, hc1, h⟩ := h
      refine ⟨s1, h1, c1, hc1, ?_⟩
      cases hb1 : c1.side b with
      | none => rw [hb1] at h; cases h
      | some l =>
        rw [hb1] at h
        simp only [Res.bind_eq_ok, Prod.exists] at h ⊢
        obtain ⟨a, s2, h2, h⟩ := h
        cases a with
        | none => cases h
        | some a =>
          simp only [Res.bind_eq_ok] at h
          obtain ⟨d, hd, h⟩ := h
          refine ⟨s2, hfg _ _ _ _ _ _ h2, d, hd, ?_⟩
          cases hbd : d.side b with
          | none => rw [hbd] at h; cases h
          | some j =>
            rw [hbd] at h
            simp only [Res.bind_eq_ok] at h
            obtain ⟨s3, h3, h⟩ := h
            cases h
            exact h3

theorem copyNodeT_some (dflt : α) : ∀ (fuel n : Nat) (s : St α) (dst src m : Nat) (s' : St α),
    copyNodeT dflt fuel n s dst src = .ok (some m, s') → copyNode dflt fuel s dst src = .ok s' := by
  intro fuel
  induction fuel with
  | zero => intro n s dst src m s' h; cases h
  | succ fuel ih =>
    intro n s dst src m s' h
    simp only [copyNodeT, Res.bind_eq_ok, Prod.exists] at h
    obtain ⟨s1, h1, a, s2, h2, h⟩ := h
    cases a with
    | none => cases h
    | some a =>
      simp only [Res.bind_eq_ok, Prod.exists] at h
      obtain ⟨b, s3, h3, h⟩ := h
      match b, h3, h with
      | some (b + 1), h3, h =>
        simp only [Res.bind_eq_ok] at h
        obtain ⟨c, hc, s4, h4, h⟩ := h
        cases h
        have g2 := copySide_some dflt (g := copyNode dflt fuel) ih h2
        have g3 := copySide_some dflt (g := copyNode dflt fuel) ih h3
        simp only [Res.bind_eq_ok] at g2 g3
        obtain ⟨c2, hc2, g2⟩ := g2
        obtain ⟨c3, hc3, g3⟩ := g3
        simp only [copyNode, h1, hc2, Res.bind_ok]
        refine (congrArg (· >>= _) g2).trans ?_
        simp only [hc3, Res.bind_ok]
        refine (congrArg (· >>= _) g3).trans ?_
        simp only [hc, Res.bind_ok, h4]

end Verif.Mem
