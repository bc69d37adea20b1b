import Verif.Mem.Props
import Verif.Mem.BinProps

/-!
AVL trees used through their base class, and C136, C137.

`avl_tree_t<T>` derives publicly from `tree_t<T, binary_node_t<T>>` (structures/binary_tree.h:458).  Its own `root()` and
traversals give out `const` nodes only (565-578, 614-714), but `add_root` is inherited (structures/tree.h:1033-1038), and a
reference to the base class gives access to the nodes without `const` and to all other functions of the base class.  Here the
operations of `Verif.Mem.Model` and those of `Verif.Mem.BinModel` are applied to the same trees, in any order.  The latter do
not see the two members of `avl_tree_t`.
-/

namespace Verif.Mem
open Avl (Tree)
open Avl.Spec (inorder MSet)
open Spec
variable {α : Type} [LinearOrder α]

inductive MOp (α : Type) where
  /-- an operation of `avl_tree_t` -/
  | avl (op : WOp α)
  /-- a function of the base class or of a node -/
  | base (op : BOp α)
deriving DecidableEq, Repr

inductive MOut where
  | avl (o : Option Avl.Out)
  | base (o : BOut)
deriving DecidableEq, Repr

def mstep (dflt : α) (w : World α) : MOp α → Res (MOut × World α)
  | .avl op => do
    let (o, w) ← w.step dflt op
    .ok (.avl o, w)
  | .base op => do
    let (o, s) ← bstep dflt w.s op
    .ok (.base o, { w with s := s })

def mrun (dflt : α) (w : World α) : List (MOp α) → Res (List MOut × World α)
  | [] => .ok ([], w)
  | op :: ops => do
    let (o, w) ← mstep dflt w op
    let (os, w) ← mrun dflt w ops
    .ok (o :: os, w)

namespace Spec

/-- The node assignments that C122 excludes. -/
def MSafe : MOp α → Prop
  | .avl _ => True
  | .base op => NodeSafe op

def MExist (w : World α) : MOp α → Prop
  | .avl _ => True
  | .base op => NodesExist w.s op

/-- No tree is overwritten by an assignment, and no node is moved to a proper descendant. -/
def MTidy (w : World α) : MOp α → Prop
  | .avl op => ToEmpty w op
  | .base op => Tidy w.s op

/-- Every operation of the program is allowed by `P` in the world where it is executed. -/
def MAlways (dflt : α) (P : World α → MOp α → Prop) (ops : List (MOp α)) : Prop :=
  ∀ pre op post outs w, ops = pre ++ op :: post → mrun dflt World.init pre = .ok (outs, w) → P w op

/-- Tree `k` holds its values in order. -/
def Ordered (w : World α) (k : Nat) : Prop := ∃ xs, Reads w.s (w.s.roots k) xs ∧ xs.Pairwise (· ≤ ·)

end Spec

/-! ### One step -/

theorem mstep_ok (dflt : α) {w : World α} {T : Nat → Tree α} (h : Inv w.s T) (op : MOp α) (hs : MSafe op ∨ ¬ MExist w op) :
    ∃ o w' T', mstep dflt w op = .ok (o, w') ∧ Inv w'.s T' ∧ (MTidy w op → NoLeak w.s T → NoLeak w'.s T') ∧
      (∀ i, Lost w.s T i → Lost w'.s T' i) ∧ (MSafe op → ¬ MTidy w op → ∃ i, Lost w'.s T' i) := by
  cases op with
  | avl op =>
    obtain ⟨o, w', T', h1, h2, h3, -, h4, h5⟩ := world_step dflt h op
    exact ⟨.avl o, w', T', by simp only [mstep, h1, Res.bind_ok], h2, h3, h4, fun _ => h5⟩
  | base op =>
    by_cases hn : NodeSafe op
    · obtain ⟨o, s', T', hok⟩ := bstep_ok dflt h op hn
      exact ⟨.base o, { w with s := s' }, T', by simp only [mstep, hok.run, Res.bind_ok], hok.inv, hok.noLeak, hok.lost, fun _ => hok.new⟩
    · have hx : ¬ NodesExist w.s op := hs.resolve_left hn
      exact ⟨.base .thrown, w, T, by simp only [mstep, (bstep_bad dflt h op hn).2 hx, Res.bind_ok], h, fun _ hl => hl, fun _ hl => hl,
        fun hc => absurd hc hn⟩

theorem mstep_bad (dflt : α) {w : World α} {T : Nat → Tree α} (h : Inv w.s T) (op : MOp α) (hn : ¬ MSafe op) (hx : MExist w op) :
    mstep dflt w op = .ub := by
  cases op with
  | avl op => exact absurd trivial hn
  | base op => simp only [mstep, (bstep_bad dflt h op hn).1 hx, Res.bind_ub]

theorem mrun_append (dflt : α) (pre : List (MOp α)) : ∀ (w : World α) (post : List (MOp α)) {outs : List MOut} {w1 : World α},
    mrun dflt w pre = .ok (outs, w1) → mrun dflt w (pre ++ post) = (do
      let (os, w2) ← mrun dflt w1 post
      .ok (outs ++ os, w2)) := by
  induction pre with
  | nil =>
    intro w post outs w1 h
    simp only [mrun, Res.ok.injEq, Prod.mk.injEq] at h
    obtain ⟨rfl, rfl⟩ := h
    simp only [List.nil_append]
    cases mrun dflt w post <;> rfl
  | cons op pre ih =>
    intro w post outs w1 h
    simp only [mrun, Res.bind_eq_ok, Prod.exists] at h
    obtain ⟨o, w2, h1, os, w3, h2, h3⟩ := h
    simp only [Res.ok.injEq, Prod.mk.injEq] at h3
    obtain ⟨rfl, rfl⟩ := h3
    simp only [List.cons_append, mrun, h1, Res.bind_ok, ih w2 post h2]
    cases mrun dflt w3 post <;> rfl

/-- Any program runs to its end, or to an assignment that is not safe. -/
theorem mrun_inv (dflt : α) : ∀ (ops : List (MOp α)) (w : World α) (T : Nat → Tree α), Inv w.s T →
    (∃ outs w' T', mrun dflt w ops = .ok (outs, w') ∧ Inv w'.s T') ∨
    (mrun dflt w ops = .ub ∧ ∃ pre op post outs w', ops = pre ++ op :: post ∧ mrun dflt w pre = .ok (outs, w') ∧
      ¬ MSafe op ∧ MExist w' op) := by
  intro ops
  induction ops with
  | nil => intro w T h; exact .inl ⟨[], w, T, rfl, h⟩
  | cons op ops ih =>
    intro w T h
    by_cases hs : MSafe op ∨ ¬ MExist w op
    · obtain ⟨o, w1, T1, h1, h2, -⟩ := mstep_ok dflt h op hs
      rcases ih w1 T1 h2 with ⟨outs, w2, T2, e, i2⟩ | ⟨e, pre, op', post, outs, w2, he, hr, hn⟩
      · exact .inl ⟨o :: outs, w2, T2, by simp only [mrun, h1, Res.bind_ok, e], i2⟩
      · exact .inr ⟨by simp only [mrun, h1, Res.bind_ok, e, Res.bind_ub], op :: pre, op', post, o :: outs, w2, by rw [he]; rfl,
          by simp only [mrun, h1, Res.bind_ok, hr], hn⟩
    · rw [not_or, not_not] at hs
      exact .inr ⟨by simp only [mrun, mstep_bad dflt h op hs.1 hs.2, Res.bind_ub], [], op, ops, [], w, rfl, rfl, hs⟩

theorem mrun_inv' {dflt : α} {ops : List (MOp α)} {outs : List MOut} {w : World α} (h : mrun dflt World.init ops = .ok (outs, w)) :
    ∃ T, Inv w.s T := by
  rcases mrun_inv dflt ops World.init _ inv_init with ⟨o, w', T', e, i⟩ | ⟨e, -⟩
  · rw [h] at e
    simp only [Res.ok.injEq, Prod.mk.injEq] at e
    rw [e.2]
    exact ⟨T', i⟩
  · rw [h] at e; cases e

theorem malways_snoc {dflt : α} {P : World α → MOp α → Prop} {ops : List (MOp α)} {op : MOp α} {outs : List MOut} {w : World α}
    (h : mrun dflt World.init ops = .ok (outs, w)) : MAlways dflt P (ops ++ [op]) ↔ MAlways dflt P ops ∧ P w op := by
  refine ⟨fun ha => ⟨fun pre a post o v e hr => ha pre a (post ++ [op]) o v (by simp [e]) hr, ha ops op [] outs w (by simp) h⟩,
    fun ⟨ha, hp⟩ pre a post o v e hr => ?_⟩
  rcases List.eq_nil_or_concat post with rfl | ⟨post, b, rfl⟩
  · obtain ⟨rfl, e'⟩ := List.append_inj' e rfl
    cases e'
    rw [h] at hr
    cases hr
    exact hp
  · have e : ops ++ [op] = (pre ++ a :: post) ++ [b] := by simpa using e
    obtain ⟨e, -⟩ := List.append_inj' e rfl
    exact ha pre a post o v e hr

/-- Induction over safe programs from the initial world. -/
theorem mrun_ind (dflt : α) (P : World α → MOp α → Prop) (Q : List (MOp α) → List MOut → World α → Prop)
    (h0 : Q [] [] World.init)
    (hs : ∀ ops outs w op, Q ops outs w → P w op → ∃ out w', mstep dflt w op = .ok (out, w') ∧ Q (ops ++ [op]) (outs ++ [out]) w')
    (ops : List (MOp α)) (hP : MAlways dflt P ops) : ∃ outs w, mrun dflt World.init ops = .ok (outs, w) ∧ Q ops outs w := by
  induction ops using List.reverseRecOn with
  | nil => exact ⟨[], _, rfl, h0⟩
  | append_singleton ops op ih =>
    obtain ⟨outs, w, h1, h2⟩ := ih fun pre op' post o w e hr => hP pre op' (post ++ [op]) o w (by simp [e]) hr
    obtain ⟨out, w', h3, h4⟩ := hs ops outs w op h2 (hP ops op [] outs w (by simp) h1)
    refine ⟨outs ++ [out], w', ?_, h4⟩
    rw [mrun_append dflt ops _ [op] h1]
    simp [mrun, h3]

/-! ### C136 memory -/

/-- The full claim of C136: AVL trees that are also used through their base class are safe: every program ends without UB, and
no node is lost. -/
def C136_statement (α : Type) [LinearOrder α] : Prop :=
  ∀ (dflt : α) (ops : List (MOp α)), ∃ outs w, mrun dflt World.init ops = .ok (outs, w) ∧
    ∀ i c, w.s.mem i = some c → ∃ k, InTree w.s k i

/-- C136 fails as C122 does: a node is assigned from its child. -/
theorem C136_counterexample : ¬ C136_statement Nat := by
  intro h
  obtain ⟨outs, w, e, -⟩ := h 0 [.avl (.call 0 (.insert 1)), .avl (.call 0 (.insert 2)), .base (.assign 0 [] 0 [true])]
  have : (mrun 0 World.init [.avl (.call 0 (.insert 1)), .avl (.call 0 (.insert 2)), .base (.assign 0 [] 0 [true])]).isOk = false := by
    decide +kernel
  rw [e] at this
  cases this

/-- C136, exactly when a program is UB: it comes to a node assignment from a proper descendant, or to a copy from a proper
ancestor, and both nodes exist.  The functions of `avl_tree_t` themselves are never UB, whatever was done to the values, the
shape and the stored heights through the base class. -/
theorem C136_undefined_iff (dflt : α) (ops : List (MOp α)) :
    mrun dflt World.init ops = .ub ↔ ∃ pre op post outs w, ops = pre ++ .base op :: post ∧
      mrun dflt World.init pre = .ok (outs, w) ∧ ¬ NodeSafe op ∧ NodesExist w.s op := by
  constructor
  · intro h
    rcases mrun_inv dflt ops World.init _ inv_init with ⟨o, w', T', e, -⟩ | ⟨-, pre, op, post, outs, w, h1, h2, h3, h4⟩
    · rw [h] at e; cases e
    · cases op with
      | avl op => exact absurd trivial h3
      | base op => exact ⟨pre, op, post, outs, w, h1, h2, h3, h4⟩
  · rintro ⟨pre, op, post, outs, w, rfl, h1, h2, h3⟩
    obtain ⟨T, hT⟩ := mrun_inv' h1
    rw [mrun_append dflt pre _ _ h1]
    simp only [mrun, mstep_bad dflt hT (.base op) h2 h3, Res.bind_ub]

/-- C136, the part that holds: without such assignments every program ends without UB, every pointer in a tree leads to an
allocated node, no node is reachable in two ways, and a node is lost if and only if an assignment overwrote a non-empty tree or
moved a node to a proper descendant.  Missing: the assignments of `C136_undefined_iff`, and those that lose nodes. -/
theorem C136_memory_partial (dflt : α) (ops : List (MOp α)) (hs : ∀ op ∈ ops, MSafe op) :
    ∃ outs w, mrun dflt World.init ops = .ok (outs, w) ∧
      (∀ k path i, follow w.s (w.s.roots k) path = some i → ∃ c, w.s.mem i = some c) ∧
      (∀ k path k' path' i, follow w.s (w.s.roots k) path = some i → follow w.s (w.s.roots k') path' = some i →
        k = k' ∧ path = path') ∧
      ((∀ i c, w.s.mem i = some c → ∃ k, InTree w.s k i) ↔ MAlways dflt MTidy ops) := by
  obtain ⟨outs, w, h1, T, h2, -, h3, h4⟩ := mrun_ind dflt (fun _ op => MSafe op)
    (fun ops outs w => ∃ T, Inv w.s T ∧ mrun dflt World.init ops = .ok (outs, w) ∧ (MAlways dflt MTidy ops → NoLeak w.s T) ∧
      (¬ MAlways dflt MTidy ops → ∃ i, Lost w.s T i))
    ⟨_, inv_init, rfl, fun _ => noLeak_init, fun h => absurd (fun pre op post _ _ e => by simp at e) h⟩
    (fun ops outs w op ⟨T, h, hr, hl, hn⟩ hsafe => by
      obtain ⟨out, w', T', h1, h2, h3, h4, h5⟩ := mstep_ok dflt h op (.inl hsafe)
      refine ⟨out, w', h1, T', h2, ?_, fun ha => ?_, fun ha => ?_⟩
      · rw [mrun_append dflt ops _ [op] hr]
        simp [mrun, h1]
      · rw [malways_snoc hr] at ha
        exact h3 ha.2 (hl ha.1)
      · rw [malways_snoc hr, not_and] at ha
        by_cases hp : MAlways dflt MTidy ops
        · exact h5 hsafe (ha hp)
        · obtain ⟨i, hi⟩ := hn hp
          exact ⟨i, h4 i hi⟩)
    ops (fun pre op post _ _ e _ => hs op (by simp [e]))
  refine ⟨outs, w, h1, fun k path i hp => (h2.rep k).some (h2.inTree.1 ⟨path, hp⟩), fun k path k' path' i hp hp' => h2.paths hp hp',
    fun hc => ?_, fun ha i c hi => ?_⟩
  · by_contra hn
    obtain ⟨i, ⟨c, hi⟩, hk⟩ := h4 hn
    obtain ⟨k, hin⟩ := hc i c hi
    exact hk k (h2.inTree.1 hin)
  · obtain ⟨k, hk⟩ := h3 ha i c hi
    exact ⟨k, h2.inTree.2 hk⟩

/-- The memory, the roots and the counters of the first three trees. -/
def mdump (r : Res (List MOut × World Nat)) : Option (List (Option (Cell Nat)) × List (Ptr × Nat)) :=
  match r with
  | .ok (_, w) => some ((List.range w.s.next).map w.s.mem, (List.range 3).map fun k => (w.s.roots k, (w.obj k).size))
  | _ => none

/-- A rotation of nodes that were added through the base class and have wrong heights. -/
example : mdump (mrun 0 World.init [.avl (.call 0 (.insert 5)), .base (.addRight 0 [] 9), .base (.addRight 0 [true] 12),
    .avl (.call 0 (.insert 15)), .avl (.call 0 (.remove 5))]) =
    some ([none, some ⟨some 2, 9, 1, none, none⟩, some ⟨none, 12, 2, some 1, some 3⟩, some ⟨some 2, 15, 1, none, none⟩],
      [(some 2, 1), (none, 0), (none, 0)]) := by decide +kernel

/-! ### C137 order and size -/

/-- What an AVL tree promises: its values are in order, `size()` is their number and `contains` finds exactly them. -/
def Promise (w : World α) (k : Nat) : Prop :=
  ∃ xs, Reads w.s (w.s.roots k) xs ∧ xs.Pairwise (· ≤ ·) ∧ (w.obj k).size = xs.length % W ∧
    ∀ x, callContains w.s k (.val x) = .ok (decide (x ∈ xs))

/-- The full claim of C137: an AVL tree keeps its promises when it is also used through its base class. -/
def C137_statement (α : Type) [LinearOrder α] : Prop :=
  ∀ (dflt : α) (ops : List (MOp α)) (outs : List MOut) (w : World α), mrun dflt World.init ops = .ok (outs, w) →
    ∀ k, Promise w k

theorem run_witness {ops : List (MOp Nat)} (f : List MOut → World Nat → Bool)
    (h : (match mrun 0 World.init ops with | .ok (o, w) => f o w | _ => false) = true) :
    ∃ outs w, mrun 0 World.init ops = .ok (outs, w) ∧ f outs w = true := by
  cases e : mrun 0 World.init ops with
  | ok p => rw [e] at h; exact ⟨p.1, p.2, rfl, h⟩
  | exc x => rw [e] at h; cases h
  | ub => rw [e] at h; cases h

/-- C137 fails: after `t.add_root(5)` the tree has one value and `size()` is 0. -/
theorem C137_counterexample : ¬ C137_statement Nat := by
  intro h
  obtain ⟨outs, w, e, hf⟩ := run_witness (ops := [.base (.addRoot 0 5)])
    (fun _ w => decide (w.s.roots 0 ≠ none) && decide ((w.obj 0).size = 0)
      && decide ((w.s.roots 0).bind w.s.mem = some ⟨none, 5, 1, none, none⟩)) (by decide +kernel)
  simp only [Bool.and_eq_true, decide_eq_true_eq] at hf
  obtain ⟨⟨h0, h1⟩, h2⟩ := hf
  obtain ⟨xs, hr, -, hs, -⟩ := h 0 _ outs w e 0
  cases hroot : w.s.roots 0 with
  | none => exact h0 hroot
  | some i =>
    rw [hroot] at hr h2
    cases hr with
    | node hi hl hr =>
      simp only [Option.bind_some] at h2
      rw [hi] at h2
      cases h2
      cases hl
      cases hr
      rw [h1] at hs
      revert hs
      decide +kernel

/-- C137 fails: the counter wraps around: `t.add_root(5); t.remove(5)` leaves an empty tree with `size()` 2^64 - 1. -/
theorem C137_counterexample_wrap : ∃ outs w, mrun 0 World.init [.base (.addRoot 0 5), .avl (.call 0 (.remove (5 : Nat)))] = .ok (outs, w) ∧
    w.s.roots 0 = none ∧ (w.obj 0).size = W - 1 := by
  obtain ⟨outs, w, e, hf⟩ := run_witness (ops := [.base (.addRoot 0 5), .avl (.call 0 (.remove (5 : Nat)))])
    (fun _ w => decide (w.s.roots 0 = none) && decide ((w.obj 0).size = W - 1)) (by decide +kernel)
  simp only [Bool.and_eq_true, decide_eq_true_eq] at hf
  exact ⟨outs, w, e, hf⟩

/-- C137 fails: after `set_value` on the root a value is in the tree that `contains` does not find and `remove` does not remove,
and that `insert` adds once more though duplicates are disabled. -/
theorem C137_counterexample_order : ∃ outs w, mrun 0 World.init [.avl (.call 0 (.insert 1)), .avl (.call 0 (.insert 2)),
      .base (.setValue 0 [] 7), .avl (.call 0 (.remove 2)), .avl (.call 0 (.insert (2 : Nat)))] = .ok (outs, w) ∧
    outs = [.avl (some (.bool true)), .avl (some (.bool true)), .base .unit, .avl (some (.bool false)), .avl (some (.bool true))] ∧
    Reads w.s (w.s.roots 0) [2, 7, 2] := by
  obtain ⟨outs, w, e, hf⟩ := run_witness (ops := [.avl (.call 0 (.insert 1)), .avl (.call 0 (.insert 2)),
      .base (.setValue 0 [] 7), .avl (.call 0 (.remove 2)), .avl (.call 0 (.insert (2 : Nat)))])
    (fun o w => decide (o = [.avl (some (.bool true)), .avl (some (.bool true)), .base .unit, .avl (some (.bool false)), .avl (some (.bool true))])
      && decide (w.s.roots 0 = some 0) && decide (w.s.mem 0 = some ⟨none, 7, 2, some 2, some 1⟩)
      && decide (w.s.mem 1 = some ⟨some 0, 2, 1, none, none⟩) && decide (w.s.mem 2 = some ⟨some 0, 2, 1, none, none⟩)) (by decide +kernel)
  simp only [Bool.and_eq_true, decide_eq_true_eq] at hf
  obtain ⟨⟨⟨⟨h0, h1⟩, h2⟩, h3⟩, h4⟩ := hf
  refine ⟨outs, w, e, h0, ?_⟩
  rw [h1]
  exact .node (xs := [2]) (ys := [2]) h2 (.node (xs := []) h4 .null .null) (.node (xs := []) h3 .null .null)

/-- The counter drifts with the number of nodes. -/
def Drift (a b : Avl.Avl α) : Prop := (a.size + (inorder b.root).length) % W = (b.size + (inorder a.root).length) % W

theorem drift_remove {a : Avl.Avl α} (h : (inorder a.root).Pairwise (· ≤ ·)) (x : α) :
    Drift a (a.remove x).1 ∧ (inorder (a.remove x).1.root).Pairwise (· ≤ ·) := by
  obtain ⟨-, h2, h3, h4, -⟩ := Avl.remove_spec a.size a.root x h
  unfold Avl.Avl.remove Drift
  generalize a.root.remove a.size x = res at *
  obtain ⟨t', b, n'⟩ := res
  simp only at *
  refine ⟨?_, h4⟩
  cases b with
  | true =>
    obtain ⟨p1, p2⟩ := h2 rfl
    have := p1.length_eq
    rw [p2, this, List.length_cons]
    unfold W
    omega
  | false =>
    obtain ⟨p1, p2⟩ := h3 rfl
    rw [p1, p2]

omit [LinearOrder α] in
theorem Drift.trans {a b c : Avl.Avl α} (h1 : Drift a b) (h2 : Drift b c) : Drift a c := by
  unfold Drift W at *
  omega

theorem drift_removeAll (x : α) : ∀ (fuel : Nat) {a a' : Avl.Avl α} {c c' : Nat}, (inorder a.root).Pairwise (· ≤ ·) →
    Avl.Avl.removeAllFuel fuel a x c = some (a', c') → Drift a a' := by
  intro fuel
  induction fuel with
  | zero => intro a a' c c' _ h; cases h
  | succ fuel ih =>
    intro a a' c c' hs h
    obtain ⟨d1, d2⟩ := drift_remove hs x
    unfold Avl.Avl.removeAllFuel at h
    generalize a.remove x = res at *
    obtain ⟨b, r⟩ := res
    cases r with
    | true => exact d1.trans (ih d2 h)
    | false =>
      simp only [Option.some.injEq, Prod.mk.injEq] at h
      obtain ⟨rfl, -⟩ := h
      exact d1

theorem drift_step {a a' : Avl.Avl α} {op : Avl.Op α} {out : Avl.Out} (h : (inorder a.root).Pairwise (· ≤ ·))
    (hs : Avl.step a op = .ok (a', out)) (hc : op ≠ .clear) : Drift a a' := by
  cases op with
  | insert x =>
    simp only [Avl.step, Res.ok.injEq, Prod.mk.injEq] at hs
    obtain ⟨rfl, -⟩ := hs
    obtain ⟨-, h2, h3, -⟩ := Avl.insert_spec a.dups a.next x a.size a.root none h
    unfold Avl.Avl.insert Drift
    generalize a.root.insert a.dups a.next x a.size none = res at *
    obtain ⟨t', b, n'⟩ := res
    simp only at *
    cases b with
    | true =>
      obtain ⟨p1, -, p2⟩ := h2 rfl
      have := p1.length_eq
      rw [p2, this, List.length_cons]
      unfold W
      omega
    | false =>
      obtain ⟨p1, p2⟩ := h3 rfl
      rw [p1, p2]
  | remove x =>
    simp only [Avl.step, Res.ok.injEq, Prod.mk.injEq] at hs
    obtain ⟨rfl, -⟩ := hs
    exact (drift_remove h x).1
  | removeAll x =>
    simp only [Avl.step, Avl.Avl.removeAll] at hs
    cases hf : Avl.Avl.removeAllFuel (Avl.Avl.nodes a.root + 1) a x 0 with
    | none => rw [hf] at hs; cases hs
    | some res =>
      obtain ⟨a1, c⟩ := res
      rw [hf] at hs
      simp only [Res.bind_ok, Res.ok.injEq, Prod.mk.injEq] at hs
      obtain ⟨rfl, -⟩ := hs
      exact drift_removeAll x _ h hf
  | clear => exact absurd rfl hc
  | enableDuplicates =>
    simp only [Avl.step, Res.ok.injEq, Prod.mk.injEq] at hs
    obtain ⟨rfl, -⟩ := hs
    rfl
  | disableDuplicates =>
    simp only [Avl.step, Res.ok.injEq, Prod.mk.injEq] at hs
    obtain ⟨rfl, -⟩ := hs
    rfl

/-- C137, the part that holds: as long as the values of tree `k` are in order, whatever its shape, its heights and its counter
became through the base class, every call works as on the multiset of its values: `contains` finds exactly them, the result and
the new values are right and in order, the other trees do not change, and the counter changes by as much as the number of
values (after `clear` it is right).  Missing: trees out of order, and the counter itself, if the base class was used to change
them. -/
theorem C137_call_partial {dflt : α} {ops : List (MOp α)} {outs : List MOut} {w : World α}
    (h : mrun dflt World.init ops = .ok (outs, w)) (k : Nat) (xs : List α) (hr : Reads w.s (w.s.roots k) xs)
    (hs : xs.Pairwise (· ≤ ·)) (op : Avl.Op α) :
    (∀ x, callContains w.s k (.val x) = .ok (decide (x ∈ xs))) ∧
    ∃ w' ys, mstep dflt w (.avl (.call k op)) = .ok (.avl (some ((MSet.mk (fun x => xs.count x) (w.obj k).dups).step op).2), w') ∧
      Reads w'.s (w'.s.roots k) ys ∧ ys.Pairwise (· ≤ ·) ∧
      (∀ x, ys.count x = ((MSet.mk (fun x => xs.count x) (w.obj k).dups).step op).1.mult x) ∧
      (w'.obj k).dups = ((MSet.mk (fun x => xs.count x) (w.obj k).dups).step op).1.dups ∧
      (op ≠ .clear → ((w.obj k).size + ys.length) % W = ((w'.obj k).size + xs.length) % W) ∧
      (op = .clear → (w'.obj k).size = 0) ∧
      ∀ j zs, j ≠ k → Reads w.s (w.s.roots j) zs → Reads w'.s (w'.s.roots j) zs ∧ w'.obj j = w.obj j := by
  obtain ⟨T, hT⟩ := mrun_inv' h
  obtain rfl : xs = inorder (T k) := reads_unique hr (by rw [hT.root k]; exact reads_rep (hT.rep k))
  refine ⟨fun x => ?_, ?_⟩
  · rw [callContains_inv hT k (ref := .val x) (x := x) rfl]
    congr 1
    rw [Bool.eq_iff_iff, decide_eq_true_eq]
    exact Avl.contains_spec x (T k) hs
  · obtain ⟨a', out, s', h1, h2, h3, -⟩ := Mem.step_inv hT k (w.obj k) op
    have hm : Means (T k) (w.obj k) ⟨fun x => (inorder (T k)).count x, (w.obj k).dups⟩ true :=
      ⟨hs, fun _ => rfl, rfl, fun h => by cases h⟩
    obtain ⟨rfl, hm'⟩ := hm.step h1
    refine ⟨{ w with s := s' }.setObj k ⟨a'.dups, a'.size⟩, inorder a'.root, ?_, ?_, hm'.sorted, hm'.mult, ?_, fun hc => ?_, fun hc => ?_,
      fun j zs hj hz => ⟨?_, by simp [World.setObj, hj]⟩⟩
    · simp only [mstep, World.step, h2, Res.bind_ok]
    · have := reads_rep (h3.rep k)
      rw [← h3.root k, upd_self] at this
      exact this
    · simpa [World.setObj] using hm'.dups
    · have := drift_step (a := view w.s T k (w.obj k)) hs h1 hc
      simpa [World.setObj, Drift, view] using this
    · subst hc
      simp only [Avl.step, Res.ok.injEq, Prod.mk.injEq] at h1
      obtain ⟨rfl, -⟩ := h1
      simp [World.setObj, Avl.Avl.clear]
    · obtain rfl : zs = inorder (T j) := reads_unique hz (by rw [hT.root j]; exact reads_rep (hT.rep j))
      have := reads_rep (h3.rep j)
      rw [← h3.root j, upd_ne _ hj] at this
      exact this

/-- C137: only the base class can bring trees out of order: if every operation of the base class leaves all trees in order, they
are in order at the end.  Missing: as above. -/
theorem C137_ordered_partial (dflt : α) (ops : List (MOp α)) (hs : ∀ op ∈ ops, MSafe op)
    (hb : MAlways dflt (fun w op => ∀ b o w', op = .base b → mstep dflt w op = .ok (o, w') → ∀ k, Ordered w' k) ops) :
    ∃ outs w, mrun dflt World.init ops = .ok (outs, w) ∧ ∀ k, Ordered w k := by
  have key : ∀ {w : World α} {T : Nat → Tree α}, Inv w.s T → ∀ k, (Ordered w k ↔ (inorder (T k)).Pairwise (· ≤ ·)) :=
    fun {w T} hT k => ⟨fun ⟨xs, h1, h2⟩ => by
      have e : inorder (T k) = xs := reads_unique (by rw [hT.root k]; exact reads_rep (hT.rep k)) h1
      rwa [e],
      fun hp => ⟨_, by rw [hT.root k]; exact reads_rep (hT.rep k), hp⟩⟩
  obtain ⟨outs, w, h1, -, h2⟩ := mrun_ind dflt
    (fun w op => MSafe op ∧ ∀ b o w', op = .base b → mstep dflt w op = .ok (o, w') → ∀ k, Ordered w' k)
    (fun _ _ w => (∃ T, Inv w.s T) ∧ ∀ k, Ordered w k)
    ⟨⟨_, inv_init⟩, fun k => ⟨[], .null, .nil⟩⟩
    (fun _ _ w op ⟨⟨T, hT⟩, ho⟩ ⟨hsafe, hP⟩ => by
      replace ho := fun k => (key hT k).1 (ho k)
      cases op with
      | base b =>
        obtain ⟨o, w', T', h1, h2, -⟩ := mstep_ok dflt hT (.base b) (.inl hsafe)
        exact ⟨o, w', h1, ⟨T', h2⟩, hP b o w' rfl h1⟩
      | avl op =>
        suffices hh : ∃ o w' T', w.step dflt op = .ok (o, w') ∧ Inv w'.s T' ∧ ∀ k, (inorder (T' k)).Pairwise (· ≤ ·) by
          obtain ⟨o, w', T', h1, h2, h3⟩ := hh
          exact ⟨.avl o, w', by simp only [mstep, h1, Res.bind_ok], ⟨T', h2⟩, fun k => (key h2 k).2 (h3 k)⟩
        have hu : ∀ {T : Nat → Tree α} (k : Nat) (t : Tree α), (∀ k, (inorder (T k)).Pairwise (· ≤ ·)) → (inorder t).Pairwise (· ≤ ·) →
            ∀ j, (inorder (upd T k t j)).Pairwise (· ≤ ·) := by
          intro T k t h1 h2 j
          by_cases hj : j = k
          · subst hj; rwa [upd_self]
          · rw [upd_ne _ hj]; exact h1 j
        cases op with
        | call k op =>
          obtain ⟨a', out, s', h1, h2, h3, -⟩ := Mem.step_inv hT k (w.obj k) op
          have hm : Means (T k) (w.obj k) ⟨fun x => (inorder (T k)).count x, (w.obj k).dups⟩ true :=
            ⟨ho k, fun _ => rfl, rfl, fun h => by cases h⟩
          exact ⟨_, _, _, by simp only [World.step, h2, Res.bind_ok]; rfl, h3, hu k _ ho (hm.step h1).2.sorted⟩
        | copy k j =>
          obtain ⟨s', t', h1, h2, h3, -⟩ := copyTree_inv dflt hT k j
          refine ⟨_, _, _, by simp only [World.step, h1, Res.bind_ok]; rfl, h2, hu k _ ho ?_⟩
          by_cases hkj : k = j
          · rcases h3.2 hkj with rfl | rfl
            · exact ho k
            · simp [inorder]
          · by_cases hj : T j = .nil
            · rw [(h3.1 hkj).1 hj]; exact ho k
            · rw [(h3.1 hkj).2 hj, (Avl.copy_spec (T j) none w.s.next).1]; exact ho j
        | move k j =>
          obtain ⟨h1, -⟩ := moveTree_inv hT k j
          exact ⟨_, _, _, rfl, h1, hu j _ (hu k _ ho (ho j)) .nil⟩
        | destroy k =>
          obtain ⟨s', h1, h2, -⟩ := deleteRoot_inv hT k
          exact ⟨_, _, _, by simp only [World.step, h1, Res.bind_ok]; rfl, h2, hu k _ ho .nil⟩)
    ops (fun pre op post o w e hr => ⟨hs op (by simp [e]), hb pre op post o w e hr⟩)
  exact ⟨outs, w, h1, h2⟩

/-- Nodes added in order through the base class are found, and removed; the counter is too small by two. -/
example : (match mrun 0 World.init [.avl (.call 0 (.insert 5)), .base (.addLeft 0 [] 3), .base (.addRight 0 [] 8), .avl (.call 0 (.insert 9)),
    .avl (.call 0 (.remove 3)), .avl (.call 0 (.insert 8))] with
    | .ok (outs, w) => (outs.drop 3, (w.obj 0).size, [3, 5, 8, 9].map fun x => (match callContains w.s 0 (.val x) with | .ok b => b | _ => false))
    | _ => ([], 0, [])) =
    ([.avl (some (.bool true)), .avl (some (.bool true)), .avl (some (.bool false))], 1, [false, true, true, true]) := by decide +kernel

end Verif.Mem
