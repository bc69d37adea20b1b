import Verif.Mem.BinBad
import Mathlib.Order.Nat

/-! Properties C122–C126: programs over plain binary trees. -/

namespace Verif.Mem
open Avl (Tree)
open Avl.Spec (ParentsExact)
open Spec
variable {α : Type}

/-! ### Histories -/

theorem inv_empty : Inv (St.empty : St α) (fun _ => .nil) :=
  ⟨fun _ => trivial, fun _ => rfl, fun _ => by simp [ids], fun _ _ _ _ h => (by cases h), fun _ _ => rfl⟩

theorem sane_safe {op : BOp α} (h : NodeSane op) : NodeSafe op := by
  cases op with
  | assign k p j q => exact ⟨fun ⟨e, h1, _⟩ => (h e).1 h1, fun ⟨e, h1, _⟩ => (h e.symm).2 h1⟩
  | moveAssign k p j q => exact fun ⟨e, h1, _⟩ => (h e).1 h1
  | _ => trivial

/-- Any program runs to its end, or to an assignment that is not safe. -/
theorem brun_inv (dflt : α) : ∀ (ops : List (BOp α)) (s : St α) (T : Nat → Tree α), Inv s T →
    (∃ outs s' T', brun dflt s ops = .ok (outs, s') ∧ Inv s' T') ∨
    (brun dflt s ops = .ub ∧ ∃ pre op post outs s', ops = pre ++ op :: post ∧ brun dflt s pre = .ok (outs, s') ∧
      ¬ NodeSafe op ∧ NodesExist s' op) := by
  intro ops
  induction ops with
  | nil => intro s T h; exact .inl ⟨[], s, T, rfl, h⟩
  | cons op ops ih =>
    intro s T h
    have go : ∀ o s' T', bstep dflt s op = .ok (o, s') → Inv s' T' →
        ((∃ outs s' T', brun dflt s (op :: ops) = .ok (outs, s') ∧ Inv s' T') ∨
        (brun dflt s (op :: ops) = .ub ∧ ∃ pre op' post outs s', op :: ops = pre ++ op' :: post ∧ brun dflt s pre = .ok (outs, s') ∧
          ¬ NodeSafe op' ∧ NodesExist s' op')) := fun o s' T' h1 h2 => by
      rcases ih s' T' h2 with ⟨outs, s2, T2, e, i2⟩ | ⟨e, pre, op', post, outs, s2, he, hr, hn⟩
      · exact Or.inl ⟨o :: outs, s2, T2, by simp only [brun, h1, Res.bind_ok, e], i2⟩
      · exact Or.inr ⟨by simp only [brun, h1, Res.bind_ok, e, Res.bind_ub], op :: pre, op', post, o :: outs, s2, by rw [he]; rfl,
          by simp only [brun, h1, Res.bind_ok, hr], hn⟩
    by_cases hs : NodeSafe op
    · obtain ⟨o, s', T', hok⟩ := bstep_ok dflt h op hs
      exact go o s' T' hok.run hok.inv
    · by_cases hx : NodesExist s op
      · exact .inr ⟨by simp only [brun, (bstep_bad dflt h op hs).1 hx, Res.bind_ub], [], op, ops, [], s, rfl, rfl, hs, hx⟩
      · exact go _ s T ((bstep_bad dflt h op hs).2 hx) h

theorem brun_append (dflt : α) (pre : List (BOp α)) : ∀ (s : St α) (post : List (BOp α)) {outs : List BOut} {s' : St α},
    brun dflt s pre = .ok (outs, s') → brun dflt s (pre ++ post) = (do
      let (os, s) ← brun dflt s' post
      .ok (outs ++ os, s)) := by
  induction pre with
  | nil =>
    intro s post outs s' h
    simp only [brun, Res.ok.injEq, Prod.mk.injEq] at h
    obtain ⟨rfl, rfl⟩ := h
    simp only [List.nil_append]
    cases brun dflt s post <;> rfl
  | cons op pre ih =>
    intro s post outs s' h
    simp only [brun, Res.bind_eq_ok, Prod.exists] at h
    obtain ⟨o, s1, h1, os, s2, h2, h3⟩ := h
    simp only [Res.ok.injEq, Prod.mk.injEq] at h3
    obtain ⟨rfl, rfl⟩ := h3
    simp only [List.cons_append, brun, h1, Res.bind_ok, ih s1 post h2]
    cases brun dflt s2 post <;> rfl

theorem brun_inv' {dflt : α} {ops : List (BOp α)} {outs : List BOut} {s : St α} (h : brun dflt St.empty ops = .ok (outs, s)) :
    ∃ T, Inv s T := by
  rcases brun_inv dflt ops St.empty _ inv_empty with ⟨o, s', T', e, i⟩ | ⟨e, -⟩
  · rw [h] at e
    simp only [Res.ok.injEq, Prod.mk.injEq] at e
    rw [e.2]
    exact ⟨T', i⟩
  · rw [h] at e; cases e

theorem brun_sane (dflt : α) : ∀ (ops : List (BOp α)) (s : St α) (T : Nat → Tree α), Inv s T → (∀ op ∈ ops, NodeSane op) →
    ∃ outs s' T', brun dflt s ops = .ok (outs, s') ∧ Inv s' T' ∧
      (BAlways TreeSane (fun k => erase (T k)) ops → brunSpec (fun k => erase (T k)) ops = (outs, fun k => erase (T' k))) ∧
      (BAlways TreeToEmpty (fun k => erase (T k)) ops → NoLeak s T → NoLeak s' T') ∧
      ((∀ op ∈ ops, MovesRoots op) → (∀ k, ParentsExact none (T k)) → ∀ k, ParentsExact none (T' k)) := by
  intro ops
  induction ops with
  | nil => intro s T h _; exact ⟨[], s, T, rfl, h, fun _ => rfl, fun _ h => h, fun _ h => h⟩
  | cons op ops ih =>
    intro s T h hs
    have hop := hs op (by simp)
    obtain ⟨o, s1, T1, hok⟩ := bstep_ok dflt h op (sane_safe hop)
    obtain ⟨outs, s2, T2, e, i2, h1, h2, h3⟩ := ih s1 T1 hok.inv fun op hm => hs op (by simp [hm])
    refine ⟨o :: outs, s2, T2, by simp only [brun, hok.run, Res.bind_ok, e], i2, fun ha => ?_, fun ha hn => ?_, fun hm hp => ?_⟩
    · have := hok.spec hop ha.1
      obtain ⟨-, ha⟩ := ha
      rw [this] at ha
      simp only [brunSpec, this, h1 ha]
    · have hsane : TreeSane (fun k => erase (T k)) op := by
        cases op with
        | copy k j => exact ⟨ha.1.1, fun _ => ha.1.2⟩
        | move k j => exact ha.1.1
        | _ => trivial
      have := hok.spec hop hsane
      obtain ⟨ha1, ha⟩ := ha
      rw [this] at ha
      have hty : Tidy s op := by
        cases op with
        | copy k j => exact .inl (by rw [h.root, erase_nil.1 ha1.2]; rfl)
        | move k j => simp only [Tidy]; rw [h.root, erase_nil.1 ha1.2]; rfl
        | moveAssign k p j q => exact fun hb => absurd hb.2.1 (hop hb.1.symm).2
        | _ => trivial
      exact h2 ha (hok.noLeak hty hn)
    · exact h3 (fun op h => hm op (by simp [h])) (hok.par hop (hm op (by simp)) hp)

/-! ### C122 memory safety -/

/-- The full claim of C122: every program over binary trees and their nodes runs without UB and ends. -/
def C122_statement (α : Type) : Prop :=
  ∀ (dflt : α) (ops : List (BOp α)), ∃ outs s, brun dflt St.empty ops = .ok (outs, s)

/-- C122 fails: `n = n.left()` deletes the left child before reading it. -/
theorem C122_counterexample : ¬ C122_statement Nat := by
  intro h
  obtain ⟨outs, s, e⟩ := h 0 [.addRoot 0 1, .addLeft 0 [] 2, .assign 0 [] 0 [false]]
  have : (brun 0 St.empty [.addRoot 0 1, .addLeft 0 [] 2, .assign 0 [] 0 [false]]).isOk = false := by decide +kernel
  rw [e] at this
  cases this

/-- C122 fails: `n.left() = n` copies for ever. -/
theorem C122_counterexample_ancestor : ¬ C122_statement Nat := by
  intro h
  obtain ⟨outs, s, e⟩ := h 0 [.addRoot 0 1, .addLeft 0 [] 2, .assign 0 [false] 0 []]
  have : (brun 0 St.empty [.addRoot 0 1, .addLeft 0 [] 2, .assign 0 [false] 0 []]).isOk = false := by decide +kernel
  rw [e] at this
  cases this

/-- C122, exactly when it fails: a program is UB if and only if it comes to an assignment of a node from a proper descendant
(copy or move), or to a copy assignment from a proper ancestor, and both nodes exist. -/
theorem C122_undefined_iff (dflt : α) (ops : List (BOp α)) :
    brun dflt St.empty ops = .ub ↔ ∃ pre op post outs s, ops = pre ++ op :: post ∧ brun dflt St.empty pre = .ok (outs, s) ∧
      ¬ NodeSafe op ∧ NodesExist s op := by
  constructor
  · intro h
    rcases brun_inv dflt ops St.empty _ inv_empty with ⟨o, s', T', e, -⟩ | ⟨-, h'⟩
    · rw [h] at e; cases e
    · exact h'
  · rintro ⟨pre, op, post, outs, s, rfl, h1, h2, h3⟩
    obtain ⟨T, hT⟩ := brun_inv' h1
    simp only [brun_append dflt pre _ _ h1, brun, (bstep_bad dflt hT op h2).1 h3, Res.bind_ub]

/-- C122: copying from a proper ancestor does not end, however many calls are allowed. -/
theorem C122_copy_diverges {dflt : α} {ops : List (BOp α)} {outs : List BOut} {s : St α} (h : brun dflt St.empty ops = .ok (outs, s))
    (k : Nat) (p q : List Bool) (dst src : Nat) (hd : follow s (s.roots k) (q ++ p) = some dst) (hs : follow s (s.roots k) q = some src)
    (hp : p ≠ []) (fuel : Nat) : copyNode dflt fuel s dst src = .ub := by
  obtain ⟨T, hT⟩ := brun_inv' h
  rw [hT.follow] at hd hs
  exact assign_up dflt hT ⟨rfl, List.prefix_append q p, fun e => hp (by simpa using e)⟩ hd hs fuel

/-- C122, the part that holds: a program without such assignments ends without UB, every pointer in a tree leads to an
allocated node, and no node is reachable in two ways.  Missing: the assignments of `C122_undefined_iff`, which are UB. -/
theorem C122_memory_safe_partial (dflt : α) (ops : List (BOp α)) (hs : ∀ op ∈ ops, NodeSafe op) :
    ∃ outs s, brun dflt St.empty ops = .ok (outs, s) ∧
      (∀ k path i, follow s (s.roots k) path = some i → ∃ c, s.mem i = some c) ∧
      (∀ k path k' path' i, follow s (s.roots k) path = some i → follow s (s.roots k') path' = some i → k = k' ∧ path = path') := by
  rcases brun_inv dflt ops St.empty _ inv_empty with ⟨outs, s, T, e, hT⟩ | ⟨-, pre, op, post, outs, s, he, -, hn, -⟩
  · exact ⟨outs, s, e, fun k path i hp => (hT.rep k).some (hT.inTree.1 ⟨path, hp⟩), fun k path k' path' i hp hp' => hT.paths hp hp'⟩
  · exact absurd (hs op (by simp [he])) hn

/-- The memory as a list, by address. -/
def bdump (r : Res (List BOut × St Nat)) : Option (List (Option (Cell Nat))) :=
  match r with
  | .ok (_, s) => some ((List.range s.next).map s.mem)
  | _ => none

/-- Copy assignment between siblings; then the copy is moved to the root of another tree. -/
example : bdump (brun 0 St.empty [.addRoot 0 1, .addLeft 0 [] 2, .addRight 0 [] 3, .addLeft 0 [false] 4, .assign 0 [true] 0 [false],
    .addRoot 1 9, .moveAssign 1 [] 0 [true]]) =
    some [some ⟨none, 1, 1, some 1, some 2⟩, some ⟨some 0, 2, 1, some 3, none⟩, some ⟨none, 2, 1, none, none⟩,
      some ⟨some 1, 4, 1, none, none⟩, some ⟨some 5, 4, 1, none, none⟩, some ⟨none, 2, 1, some 4, none⟩] := by decide +kernel
/-- Missing nodes throw; the program goes on. -/
example : (match brun 0 St.empty [.addLeft 0 [] 2, .addRoot 0 1, .assign 0 [] 0 [false], .addRight 0 [] 3, .addRight 0 [] 4,
    .deleteChild 0 [] 1, .deleteChild 0 [] 1, .swap 0 [] 0] with | .ok (outs, _) => outs | _ => []) =
    [.thrown, .unit, .thrown, .bool true, .bool false, .bool true, .bool false, .unit] := by decide +kernel
example : NodeSafe (.moveAssign 0 [false] 0 [] : BOp Nat) := by
  rintro ⟨-, h, -⟩; exact absurd h (by decide)

/-! ### C123 contents -/

/-- The full claim of C123: if a program ends, its results are those of the same program over immutable trees that are values,
and so is the content of every tree. -/
def C123_statement (α : Type) : Prop :=
  ∀ (dflt : α) (ops : List (BOp α)) (outs : List BOut) (s : St α), brun dflt St.empty ops = .ok (outs, s) →
    outs = (brunSpec (fun _ => .nil) ops).1 ∧ ∀ k, Looks s (s.roots k) ((brunSpec (fun _ => .nil) ops).2 k)

/-- `add_left` returns a result that it does not return if the trees are values. -/
theorem c123_witness (ops : List (BOp Nat)) (h : (match brun 0 St.empty ops with
    | .ok (outs, _) => decide (outs ≠ (brunSpec (fun _ => .nil) ops).1)
    | _ => false) = true) : ¬ C123_statement Nat := by
  intro hc
  cases hx : brun 0 St.empty ops with
  | ok p =>
    obtain ⟨outs, s⟩ := p
    rw [hx] at h
    simp only [decide_eq_true_eq] at h
    exact h (hc 0 ops outs s hx).1
  | exc e => rw [hx] at h; cases h
  | ub => rw [hx] at h; cases h

/-- C123 fails: `n = n` for a node deletes its children. -/
theorem C123_counterexample : ¬ C123_statement Nat :=
  c123_witness [.addRoot 0 1, .addLeft 0 [] 2, .assign 0 [] 0 [], .addLeft 0 [] 3] (by decide +kernel)

/-- C123 fails: `t = t` for a tree replaces it by one node. -/
theorem C123_counterexample_tree : ¬ C123_statement Nat :=
  c123_witness [.addRoot 0 1, .addLeft 0 [] 2, .copy 0 0, .addLeft 0 [] 3] (by decide +kernel)

/-- C123 fails: `t = u` with an empty `u` leaves `t` as it is. -/
theorem C123_counterexample_empty : ¬ C123_statement Nat :=
  c123_witness [.addRoot 0 1, .copy 0 1, .addLeft 0 [] 3] (by decide +kernel)

/-- C123, the part that holds: node assignments are between separate nodes, trees are not assigned to themselves, and empty
trees are not copied to non-empty ones.  Missing: the other assignments (see the counterexamples and C122). -/
theorem C123_contents_partial (dflt : α) (ops : List (BOp α)) (hs : ∀ op ∈ ops, NodeSane op)
    (ht : BAlways TreeSane (fun _ => .nil) ops) :
    ∃ outs s, brun dflt St.empty ops = .ok (outs, s) ∧ outs = (brunSpec (fun _ => .nil) ops).1 ∧
      ∀ k, Looks s (s.roots k) ((brunSpec (fun _ => .nil) ops).2 k) := by
  obtain ⟨outs, s, T, e, hT, h1, -, -⟩ := brun_sane dflt ops St.empty _ inv_empty hs
  have h1 : brunSpec (fun _ => .nil) ops = (outs, fun k => erase (T k)) := h1 ht
  refine ⟨outs, s, e, by rw [h1], fun k => ?_⟩
  rw [h1, hT.root k]
  exact looks_rep (hT.rep k)

/-- What hangs at a pointer is determined. -/
theorem C123_unique (s : St α) (p : Ptr) (t u : BT α) (h1 : Looks s p t) (h2 : Looks s p u) : t = u := looks_unique h1 h2

example : (brunSpec (fun _ => .nil) [.addRoot 0 1, .addLeft 0 [] 2, .addRight 0 [] 3, .swap 0 [] 0, .assign 0 [true] 0 [false], .addLeft 0 [true] 7,
    .copy 1 0, .clearNode 0 [], .moveAssign 0 [] 1 [true]]).2 0 = (.node 1 (.node 7 .nil .nil) .nil : BT Nat) := by decide +kernel
example : BAlways TreeSane (fun _ => .nil) [.addRoot 0 1, .copy 1 0, .move 2 (1 : Nat), .addLeft 2 [] (5 : Nat)] :=
  ⟨trivial, ⟨by decide, fun h => by cases h⟩, (by decide : (2 : Nat) ≠ 1), trivial, trivial⟩

/-! ### C124 parents -/

/-- The full claim of C124: `parent()` of a node that is found below another one is that one; roots have no parent. -/
def C124_statement (α : Type) : Prop :=
  ∀ (dflt : α) (ops : List (BOp α)) (outs : List BOut) (s : St α), brun dflt St.empty ops = .ok (outs, s) →
    (∀ k i, s.roots k = some i → parentOf s i = .exc .invalidNode) ∧
    ∀ k path b i, follow s (s.roots k) (path ++ [b]) = some i →
      ∃ j, follow s (s.roots k) path = some j ∧ parentOf s i = .ok j

/-- C124 fails: `u.root() = std::move(t.root().left())` leaves the moved-from node in `t`, without a parent. -/
theorem C124_counterexample : ¬ C124_statement Nat := by
  intro h
  have e : (match brun 0 St.empty [.addRoot 0 1, .addLeft 0 [] 2, .addRoot 1 3, .moveAssign 1 [] 0 [false]] with
    | .ok (_, s) => decide (follow s (s.roots 0) ([] ++ [false]) = some 1) && decide ((parentOf s 1).isOk = false)
    | _ => false) = true := by decide +kernel
  cases hx : brun 0 St.empty [.addRoot 0 1, .addLeft 0 [] 2, .addRoot 1 3, .moveAssign 1 [] 0 [false]] with
  | ok p =>
    obtain ⟨outs, s⟩ := p
    rw [hx] at e
    simp only [Bool.and_eq_true, decide_eq_true_eq] at e
    obtain ⟨j, -, hj⟩ := (h 0 _ outs s hx).2 0 [] false 1 e.1
    rw [hj] at e
    cases e.2
  | exc x => rw [hx] at e; cases e
  | ub => rw [hx] at e; cases e

theorem parents_at (path : List Bool) : ∀ {t : Tree α} {q : Ptr} (b : Bool) {i : Nat} {p : Ptr} {v : α} {h : Nat} {l r : Tree α},
    ParentsExact q t → subAt t (path ++ [b]) = .node i p v h l r → p = ptr (subAt t path) := by
  induction path with
  | nil =>
    intro t q b i p v h l r hp ht
    cases t with
    | nil => cases ht
    | node ti tp tv th tl tr =>
      obtain ⟨-, h1, h2⟩ := hp
      cases b with
      | false =>
        have ht : subAt tl [] = .node i p v h l r := ht
        cases tl with
        | nil => cases ht
        | node => cases ht; exact h1.1
      | true =>
        have ht : subAt tr [] = .node i p v h l r := ht
        cases tr with
        | nil => cases ht
        | node => cases ht; exact h2.1
  | cons c path ih =>
    intro t q b i p v h l r hp ht
    cases t with
    | nil => cases ht
    | node ti tp tv th tl tr =>
      cases c with
      | false => exact ih (t := tl) b hp.2.1 ht
      | true => exact ih (t := tr) b hp.2.2 ht

/-- C124, the part that holds: node assignments are between separate nodes, and only roots are moved from.  Missing: moving
from a node that is not a root, which the counterexample shows to fail, and the assignments of C122. -/
theorem C124_parent_partial (dflt : α) (ops : List (BOp α)) (hs : ∀ op ∈ ops, NodeSane op) (hm : ∀ op ∈ ops, MovesRoots op) :
    ∃ outs s, brun dflt St.empty ops = .ok (outs, s) ∧
      (∀ k i, s.roots k = some i → parentOf s i = .exc .invalidNode) ∧
      ∀ k path b i, follow s (s.roots k) (path ++ [b]) = some i →
        ∃ j, follow s (s.roots k) path = some j ∧ parentOf s i = .ok j := by
  obtain ⟨outs, s, T, e, hT, -, -, h3⟩ := brun_sane dflt ops St.empty _ inv_empty hs
  replace h3 := h3 hm fun _ => trivial
  refine ⟨outs, s, e, fun k i hi => ?_, fun k path b i hi => ?_⟩
  · rw [hT.root k] at hi
    have h1 := h3 k
    have h2 := hT.rep k
    cases ht : T k with
    | nil => rw [ht] at hi; cases hi
    | node i' p v h l r =>
      rw [ht] at hi h1 h2
      simp only [ptr_node, Option.some.injEq] at hi
      subst hi
      obtain rfl : p = none := h1.1
      simp only [parentOf, cell_eq h2.1, Res.bind_ok]
  · rw [hT.follow] at hi
    simp only [hT.follow]
    have h2 := rep_subAt (path ++ [b]) (hT.rep k)
    cases ht : subAt (T k) (path ++ [b]) with
    | nil => rw [ht] at hi; cases hi
    | node i' p v h l r =>
      rw [ht] at hi h2
      simp only [ptr_node, Option.some.injEq] at hi
      subst hi
      have hp := parents_at path b (h3 k) ht
      cases hpp : subAt (T k) path with
      | nil =>
        rw [subAt_append, hpp] at ht
        cases ht
      | node j _ _ _ _ _ =>
        rw [hpp] at hp
        refine ⟨j, rfl, ?_⟩
        simp only [parentOf, cell_eq h2.1, Res.bind_ok, hp, ptr_node]

example : (match brun 0 St.empty [.addRoot 0 1, .addLeft 0 [] 2, .addRight 0 [false] 3, .addRoot 1 5, .addLeft 1 [] 6, .moveAssign 1 [false] 0 []] with
    | .ok (_, s) => some (follow s (s.roots 1) [false, false], (List.range s.next).map fun i => (s.mem i).map (·.par))
    | _ => none) = some (some 1, [some none, some (some 4), some (some 1), some none, some (some 3)]) := by decide +kernel

/-! ### C125 leaks -/

/-- The full claim of C125: every node that was allocated and not deleted is reachable from a tree. -/
def C125_statement (α : Type) : Prop :=
  ∀ (dflt : α) (ops : List (BOp α)) (outs : List BOut) (s : St α), brun dflt St.empty ops = .ok (outs, s) →
    ∀ i c, s.mem i = some c → ∃ k, InTree s k i

theorem unused (dflt : α) : ∀ (ops : List (BOp α)) (s : St α) (T : Nat → Tree α), Inv s T → (∀ op ∈ ops, NodeSafe op) →
    ∀ outs s', brun dflt s ops = .ok (outs, s') → ∀ j, (∀ op ∈ ops, j ∉ bnames op) → s'.roots j = s.roots j := by
  intro ops
  induction ops with
  | nil =>
    intro s T h _ outs s' e j _
    simp only [brun, Res.ok.injEq, Prod.mk.injEq] at e
    rw [e.2]
  | cons op ops ih =>
    intro s T h hs outs s' e j hj
    obtain ⟨o, s1, T1, hok⟩ := bstep_ok dflt h op (hs op (by simp))
    simp only [brun, hok.run, Res.bind_ok, Res.bind_eq_ok, Prod.exists] at e
    obtain ⟨os, s2, e1, e2⟩ := e
    simp only [Res.ok.injEq, Prod.mk.injEq] at e2
    obtain ⟨-, rfl⟩ := e2
    rw [ih s1 T1 hok.inv (fun op hm => hs op (by simp [hm])) os s2 e1 j fun op hm => hj op (by simp [hm]), hok.inv.root, h.root,
      hok.others j (hj op (by simp))]

/-- A program over the trees 0 and 1 that leaves node `i` behind though both trees are empty at the end. -/
theorem c125_witness (ops : List (BOp Nat)) (i : Nat) (hs : ∀ op ∈ ops, NodeSafe op) (hn : ∀ op ∈ ops, ∀ k ∈ bnames op, k < 2)
    (h : (match brun 0 St.empty ops with
    | .ok (_, s) => (s.mem i).isSome && decide (s.roots 0 = none) && decide (s.roots 1 = none)
    | _ => false) = true) : ¬ C125_statement Nat := by
  intro hc
  cases hx : brun 0 St.empty ops with
  | ok p =>
    obtain ⟨outs, s⟩ := p
    rw [hx] at h
    simp only [Bool.and_eq_true, decide_eq_true_eq] at h
    obtain ⟨⟨h1, h2⟩, h3⟩ := h
    obtain ⟨c, hi⟩ := Option.isSome_iff_exists.1 h1
    obtain ⟨k, path, hp⟩ := hc 0 _ outs s hx i c hi
    have : s.roots k = none := by
      by_cases hk : 2 ≤ k
      · exact unused 0 ops _ _ inv_empty hs outs s hx k fun op hm hb => by have := hn op hm k hb; omega
      · have : k = 0 ∨ k = 1 := by omega
        rcases this with rfl | rfl
        · exact h2
        · exact h3
    rw [this] at hp
    cases path <;> simp [follow] at hp
  | exc e => rw [hx] at h; cases h
  | ub => rw [hx] at h; cases h

/-- C125 fails: `t = u` with a non-empty `t` leaks the nodes of `t`. -/
theorem C125_counterexample : ¬ C125_statement Nat :=
  c125_witness [.addRoot 0 7, .addRoot 1 8, .copy 0 1, .clear 0, .clear 1] 0
    (by intro op h; simp at h; rcases h with rfl | rfl | rfl | rfl | rfl <;> trivial)
    (by decide) (by decide +kernel)

/-- C125 fails: `n.left() = std::move(n)` makes a cycle of nodes that no tree contains. -/
theorem C125_counterexample_cycle : ¬ C125_statement Nat :=
  c125_witness [.addRoot 0 7, .addLeft 0 [] 8, .moveAssign 0 [false] 0 [], .clear 0] 1
    (by
      intro op h
      simp at h
      rcases h with rfl | rfl | rfl | rfl
      · trivial
      · trivial
      · rintro ⟨-, h, -⟩; exact absurd h (by decide)
      · trivial)
    (by decide) (by decide +kernel)

theorem brun_lost (dflt : α) : ∀ (ops : List (BOp α)) (s : St α) (T : Nat → Tree α), Inv s T → (∀ op ∈ ops, NodeSafe op) →
    ∃ outs s' T', brun dflt s ops = .ok (outs, s') ∧ Inv s' T' ∧ (BAlwaysIn dflt Tidy s ops → NoLeak s T → NoLeak s' T') ∧
      (∀ i, Lost s T i → Lost s' T' i) ∧ (¬ BAlwaysIn dflt Tidy s ops → ∃ i, Lost s' T' i) := by
  intro ops
  induction ops with
  | nil => intro s T h _; exact ⟨[], s, T, rfl, h, fun _ h => h, fun _ h => h, fun hn => absurd trivial hn⟩
  | cons op ops ih =>
    intro s T h hs
    obtain ⟨o, s1, T1, hok⟩ := bstep_ok dflt h op (hs op (by simp))
    obtain ⟨outs, s2, T2, e, i2, h1, h2, h3⟩ := ih s1 T1 hok.inv fun op hm => hs op (by simp [hm])
    refine ⟨o :: outs, s2, T2, by simp only [brun, hok.run, Res.bind_ok, e], i2, fun ha hn => h1 (ha.2 o s1 hok.run) (hok.noLeak ha.1 hn),
      fun i hi => h2 i (hok.lost i hi), fun hn => ?_⟩
    by_cases ht : Tidy s op
    · refine h3 fun ha => hn ⟨ht, fun o' s' hr => ?_⟩
      rw [hok.run] at hr
      cases hr
      exact ha
    · obtain ⟨i, hi⟩ := hok.new ht
      exact ⟨i, h2 i hi⟩

/-- C125, exactly when it fails, for the programs that run to their end (C122): a node is lost at the end if and only if some
operation assigned a tree to a non-empty tree (other than by copying an empty tree) or moved a node to a proper descendant. -/
theorem C125_exact (dflt : α) (ops : List (BOp α)) (hs : ∀ op ∈ ops, NodeSafe op) :
    ∃ outs s, brun dflt St.empty ops = .ok (outs, s) ∧
      ((∀ i c, s.mem i = some c → ∃ k, InTree s k i) ↔ BAlwaysIn dflt Tidy St.empty ops) := by
  obtain ⟨outs, s, T, e, hT, h1, -, h3⟩ := brun_lost dflt ops St.empty _ inv_empty hs
  refine ⟨outs, s, e, fun hc => ?_, fun ha i c hi => ?_⟩
  · by_contra hn
    obtain ⟨i, ⟨c, hi⟩, hk⟩ := h3 hn
    obtain ⟨k, hin⟩ := hc i c hi
    exact hk k (hT.inTree.1 hin)
  · obtain ⟨k, hk⟩ := h1 ha (fun i c h => by cases h) i c hi
    exact ⟨k, hT.inTree.2 hk⟩

/-- C125: a node that is lost stays lost: no safe operation frees it or brings it back. -/
theorem C125_lost_for_ever (dflt : α) (ops more : List (BOp α)) (hs : ∀ op ∈ ops, NodeSafe op) (hm : ∀ op ∈ more, NodeSafe op)
    (outs : List BOut) (s : St α) (h : brun dflt St.empty ops = .ok (outs, s)) (i : Nat) (c : Cell α) (hi : s.mem i = some c)
    (hl : ∀ k, ¬ InTree s k i) :
    ∃ outs' s', brun dflt s more = .ok (outs', s') ∧ (∃ c', s'.mem i = some c') ∧ ∀ k, ¬ InTree s' k i := by
  obtain ⟨outs0, s0, T, e, hT, -⟩ := brun_lost dflt ops St.empty _ inv_empty hs
  rw [h] at e
  cases e
  obtain ⟨outs', s', T', e, hT', -, h2, -⟩ := brun_lost dflt more s T hT hm
  obtain ⟨h3, h4⟩ := h2 i ⟨⟨c, hi⟩, fun k hk => hl k (hT.inTree.2 hk)⟩
  exact ⟨outs', s', e, h3, fun k hk => h4 k (hT'.inTree.1 hk)⟩

/-- C125, the part that holds: node assignments are between separate nodes, and trees are assigned to other, empty trees only.
Missing: the other assignments (`C125_exact` says which of them lose nodes). -/
theorem C125_no_leak_partial (dflt : α) (ops : List (BOp α)) (hs : ∀ op ∈ ops, NodeSane op)
    (ht : BAlways TreeToEmpty (fun _ => .nil) ops) :
    ∃ outs s, brun dflt St.empty ops = .ok (outs, s) ∧ (∀ i c, s.mem i = some c → ∃ k, InTree s k i) ∧
      ((∀ k, s.roots k = none) → ∀ i, s.mem i = none) := by
  obtain ⟨outs, s, T, e, hT, -, h2, -⟩ := brun_sane dflt ops St.empty _ inv_empty hs
  have h2 : NoLeak s T := h2 ht fun i c h => by cases h
  refine ⟨outs, s, e, fun i c hi => ?_, fun hroots i => ?_⟩
  · obtain ⟨k, hk⟩ := h2 i c hi
    exact ⟨k, hT.inTree.2 hk⟩
  · cases hi : s.mem i with
    | none => rfl
    | some c =>
      obtain ⟨k, hk⟩ := h2 i c hi
      have : T k = .nil := ptr_none.1 (by rw [← hT.root k]; exact hroots k)
      rw [this] at hk
      cases hk

example : bdump (brun 0 St.empty [.addRoot 0 7, .addLeft 0 [] 8, .copy 1 0, .addRoot 0 5, .moveAssign 1 [false] 0 [], .move 2 1, .clear 2, .clear 0]) =
    some [none, none, none, none, none] := by decide +kernel
/-- A node moved to itself loses its children, but they are deleted. -/
example : bdump (brun 0 St.empty [.addRoot 0 7, .addLeft 0 [] 8, .moveAssign 0 [] 0 [], .clear 0]) = some [none, none] := by decide +kernel
/-- The cycle: node 1 is its own left child. -/
example : bdump (brun 0 St.empty [.addRoot 0 7, .addLeft 0 [] 8, .moveAssign 0 [false] 0 []]) =
    some [some ⟨none, 7, 1, none, none⟩, some ⟨some 1, 7, 1, some 1, none⟩] := by decide +kernel

/-! ### C126 references into a tree -/

/-- The full claim of C126: `add_root`, called with a reference to the value of any live node, does what it does with a copy of
the value. -/
def C126_statement (α : Type) : Prop :=
  ∀ (dflt : α) (ops : List (BOp α)) (outs : List BOut) (s : St α), brun dflt St.empty ops = .ok (outs, s) →
    ∀ k i c, s.mem i = some c →
      ∃ s1 s2, addRoot s.fuel s k (.node i) = .ok s1 ∧ addRoot s.fuel s k (.val c.val) = .ok s2 ∧ Same s1 s2

theorem addRoot_node_eq (s : St α) (k i : Nat) : addRoot s.fuel s k (.node i) = (do
    let s ← deleteRoot s k
    let x ← deref s (.node i)
    .ok ((alloc s none x).2.setRoot k (some s.next))) := by
  unfold addRoot deleteRoot
  cases s.roots k with
  | none => rfl
  | some r =>
    simp only
    cases deleteNode s.fuel s r <;> rfl

/-- C126 fails for every node of the tree itself: the node is deleted before its value is read. -/
theorem C126_undefined {dflt : α} {ops : List (BOp α)} {outs : List BOut} {s : St α} (h : brun dflt St.empty ops = .ok (outs, s))
    (k i : Nat) (hi : InTree s k i) : addRoot s.fuel s k (.node i) = .ub := by
  obtain ⟨T, hT⟩ := brun_inv' h
  obtain ⟨s1, e1, -, -, m1, -⟩ := deleteRoot_inv hT k
  have : s1.mem i = none := by rw [m1, if_pos (hT.inTree.1 hi)]
  simp only [addRoot_node_eq, e1, Res.bind_ok, deref, cell, this, Res.bind_ub]

theorem C126_counterexample : ¬ C126_statement Nat := by
  intro h
  have e : (match brun 0 St.empty [.addRoot 0 7] with
    | .ok (_, s) => (s.mem 0).isSome && decide ((addRoot s.fuel s 0 (.node 0)).isOk = false)
    | _ => false) = true := by decide +kernel
  cases hx : brun 0 St.empty [.addRoot 0 7] with
  | ok p =>
    obtain ⟨outs, s⟩ := p
    rw [hx] at e
    simp only [Bool.and_eq_true, decide_eq_true_eq] at e
    obtain ⟨c, hi⟩ := Option.isSome_iff_exists.1 e.1
    obtain ⟨s1, s2, h1, -⟩ := h 0 _ outs s hx 0 0 c hi
    rw [h1] at e
    cases e.2
  | exc x => rw [hx] at e; cases e
  | ub => rw [hx] at e; cases e

/-- C126, the part that holds: the node is not in the tree that gets the new root.  Missing: the nodes of that tree, where
`C126_undefined` shows that the call is UB. -/
theorem C126_other_partial {dflt : α} {ops : List (BOp α)} {outs : List BOut} {s : St α} (h : brun dflt St.empty ops = .ok (outs, s))
    (k i : Nat) (c : Cell α) (hi : s.mem i = some c) (hk : ¬ InTree s k i) :
    ∃ s1 s2, addRoot s.fuel s k (.node i) = .ok s1 ∧ addRoot s.fuel s k (.val c.val) = .ok s2 ∧ Same s1 s2 := by
  obtain ⟨T, hT⟩ := brun_inv' h
  obtain ⟨s1, e1, -, -, m1, -⟩ := deleteRoot_inv hT k
  have hc : s1.mem i = some c := by rw [m1, if_neg fun hc => hk (hT.inTree.2 hc), hi]
  refine ⟨(alloc s1 none c.val).2.setRoot k (some s1.next), (alloc s1 none c.val).2.setRoot k (some s1.next), ?_, ?_,
    fun _ _ => ⟨rfl, fun _ _ => rfl⟩⟩
  · simp only [addRoot_node_eq, e1, Res.bind_ok, deref, cell, hc]
  · simp only [addRoot_eq, e1, Res.bind_ok]

/-- C126: `add_left` and `add_right` may be given a reference to any live value. -/
theorem C126_add_child (s : St α) (i j : Nat) (c : Cell α) (hj : s.mem j = some c) :
    addLeft s i (.node j) = addLeft s i (.val c.val) ∧ addRight s i (.node j) = addRight s i (.val c.val) := by
  unfold addLeft addRight
  simp only [deref, cell, hj, Res.bind_ok]
  exact ⟨trivial, trivial⟩

example : (match brun 0 St.empty [.addRoot 0 7, .addLeft 0 [] 8] with
    | .ok (_, s) => (match addRoot s.fuel s 1 (.node 1), addRoot s.fuel s 0 (.node 1) with
      | .ok s', r => some ((List.range 3).map s'.mem, s'.roots 1, r.isOk)
      | _, _ => none)
    | _ => none) = some ([some ⟨none, 7, 1, some 1, none⟩, some ⟨some 0, 8, 1, none, none⟩, some ⟨none, 8, 1, none, none⟩], some 2, false) := by
  decide +kernel

end Verif.Mem
