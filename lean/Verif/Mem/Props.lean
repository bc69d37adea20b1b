import Verif.Mem.Refs
import Mathlib.Order.Nat

/-! Properties C116–C120. -/

namespace Verif.Mem
open Avl (Tree)
open Avl.Spec (inorder MSet)
open Spec
set_option linter.unusedSectionVars false
variable {α : Type} [LinearOrder α]

/-- The memory as a list, by address. -/
def dump (r : Res (List (Option Avl.Out) × World Nat)) : Option (List (Option (Cell Nat))) :=
  match r with
  | .ok (_, w) => some ((List.range w.s.next).map w.s.mem)
  | _ => none

/-- The roots and counters of the first three trees. -/
def objs (r : Res (List (Option Avl.Out) × World Nat)) : Option (List (Ptr × Nat)) :=
  match r with
  | .ok (_, w) => some ((List.range 3).map fun k => (w.s.roots k, (w.obj k).size))
  | _ => none

theorem world_inv (dflt : α) (ops : List (WOp α)) :
    ∃ outs w, World.init.run dflt ops = .ok (outs, w) ∧ ∃ T, Inv w.s T :=
  run_ind dflt (fun _ _ => True) (fun _ _ w => ∃ T, Inv w.s T) ⟨_, inv_init⟩
    (fun _ _ w op ⟨_, h⟩ _ => by
      obtain ⟨out, w', T', h1, h2, -, -⟩ := world_step dflt h op
      exact ⟨out, w', h1, T', h2⟩)
    ops (fun _ _ _ _ _ _ _ => trivial)

theorem world_inv' {dflt : α} {ops : List (WOp α)} {outs : List (Option Avl.Out)} {w : World α}
    (h : World.init.run dflt ops = .ok (outs, w)) : ∃ T, Inv w.s T := by
  obtain ⟨outs', w', h1, h2⟩ := world_inv dflt ops
  rw [h] at h1
  simp only [Res.ok.injEq, Prod.mk.injEq] at h1
  rw [h1.2]
  exact h2

/-! ### C116 memory safety -/

/-- C116: every program over any number of trees (calls, copies, moves, also to itself, destructions) runs without UB: no null
pointer or deleted node is accessed, nothing is deleted twice, every call returns.  Every pointer in a tree leads to an
allocated node, and no node is reachable in two ways (in one tree or in two). -/
theorem C116_memory_safe (dflt : α) (ops : List (WOp α)) :
    ∃ outs w, World.init.run dflt ops = .ok (outs, w) ∧
      (∀ k path i, follow w.s (w.s.roots k) path = some i → ∃ c, w.s.mem i = some c) ∧
      (∀ k path k' path' i, follow w.s (w.s.roots k) path = some i → follow w.s (w.s.roots k') path' = some i →
        k = k' ∧ path = path') := by
  obtain ⟨outs, w, h1, T, h2⟩ := world_inv dflt ops
  refine ⟨outs, w, h1, fun k path i hp => ?_, fun k path k' path' i hp hp' => h2.paths hp hp'⟩
  exact (h2.rep k).some (h2.inTree.1 ⟨path, hp⟩)

/-- A rotation, a copy, removal of a node with two children, a move, destructions. -/
example : dump (World.init.run 0 [.call 0 (.insert 1), .call 0 (.insert 2), .call 0 (.insert 3), .copy 1 0,
    .call 0 (.remove 2), .move 2 1, .call 2 (.remove 1), .destroy 0]) =
    some [none, none, none, some ⟨none, 2, 2, none, some 5⟩, none, some ⟨some 3, 3, 1, none, none⟩] := by decide +kernel
example : (World.init.run 0 [.call 0 (.insert 1), .copy 0 0, .move 0 0, .call 0 (.insert 1)]).isOk = true := by decide +kernel
/-- Reading through a pointer that was kept is UB in the model. -/
example : callContains (((St.empty.set 0 ⟨none, 5, 1, none, none⟩).setRoot 0 (some 0)).drop 0 : St Nat) 0 (.val 5) = .ub := by decide +kernel

/-! ### C117 leaks -/

/-- The full claim of C117: every node that was allocated and not deleted is reachable from a tree. -/
def C117_statement (α : Type) [LinearOrder α] : Prop :=
  ∀ (dflt : α) (ops : List (WOp α)) (outs : List (Option Avl.Out)) (w : World α), World.init.run dflt ops = .ok (outs, w) →
    ∀ i c, w.s.mem i = some c → ∃ k, InTree w.s k i

theorem unused_roots (dflt : α) {ops : List (WOp α)} {outs : List (Option Avl.Out)} {w : World α} {n : Nat}
    (h : World.init.run dflt ops = .ok (outs, w)) (hn : ∀ op ∈ ops, ∀ k ∈ names op, k < n) : ∀ k, n ≤ k → w.s.roots k = none := by
  obtain ⟨outs', w', h1, T, h2, h3⟩ := run_ind dflt (fun _ op => ∀ k ∈ names op, k < n)
    (fun _ _ w => ∃ T, Inv w.s T ∧ ∀ k, n ≤ k → T k = .nil) ⟨_, inv_init, fun _ _ => rfl⟩
    (fun _ _ w op ⟨_, h, hT⟩ hP => by
      obtain ⟨out, w', T', h1, h2, -, h4, -⟩ := world_step dflt h op
      refine ⟨out, w', h1, T', h2, fun k hk => ?_⟩
      rw [h4 k fun hm => by have := hP k hm; omega, hT k hk])
    ops (fun pre op post _ _ e _ => hn op (by simp [e]))
  rw [h] at h1
  simp only [Res.ok.injEq, Prod.mk.injEq] at h1
  intro k hk
  rw [h1.2, h2.root k, h3 k hk]
  rfl

/-- A program over the trees 0 and 1 that leaves node `i` behind though both trees are gone. -/
def leaves (ops : List (WOp Nat)) (i : Nat) : Bool :=
  ops.all (fun op => (names op).all (· < 2)) &&
    match World.init.run 0 ops with
    | .ok (_, w) => (w.s.mem i).isSome && (w.s.roots 0).isNone && (w.s.roots 1).isNone
    | _ => false

theorem leak_witness (ops : List (WOp Nat)) (i : Nat) (hk : leaves ops i = true) : ¬ C117_statement Nat := by
  intro h
  simp only [leaves, Bool.and_eq_true] at hk
  obtain ⟨hn, hk⟩ := hk
  cases hx : World.init.run 0 ops with
  | ok p =>
    obtain ⟨outs, w⟩ := p
    rw [hx] at hk
    simp only [Bool.and_eq_true, Option.isNone_iff_eq_none] at hk
    obtain ⟨⟨hi, h0⟩, h1⟩ := hk
    obtain ⟨c, hc⟩ := Option.isSome_iff_exists.1 hi
    obtain ⟨k, path, hp⟩ := h 0 ops outs w hx i c hc
    have hroots : w.s.roots k = none := by
      by_cases hk2 : 2 ≤ k
      · exact unused_roots 0 hx (by simpa using hn) k hk2
      · have : k = 0 ∨ k = 1 := by omega
        rcases this with rfl | rfl
        · exact h0
        · exact h1
    rw [hroots] at hp
    cases path <;> simp [follow] at hp
  | exc e => rw [hx] at hk; cases hk
  | ub => rw [hx] at hk; cases hk

/-- C117 fails: `a = b` with a non-empty `a` leaks the nodes of `a`. -/
theorem C117_counterexample : ¬ C117_statement Nat :=
  leak_witness [.call 0 (.insert 7), .call 1 (.insert 8), .copy 0 1, .destroy 0, .destroy 1] 0 (by decide +kernel)

/-- C117 fails: `a = std::move(b)` with a non-empty `a` leaks the nodes of `a`. -/
theorem C117_counterexample_move : ¬ C117_statement Nat :=
  leak_witness [.call 0 (.insert 7), .call 1 (.insert 8), .move 0 1, .destroy 0, .destroy 1] 0 (by decide +kernel)

/-- C117 fails: `a = a` leaks the whole tree. -/
theorem C117_counterexample_self : ¬ C117_statement Nat :=
  leak_witness [.call 0 (.insert 7), .copy 0 0, .destroy 0] 0 (by decide +kernel)

/-- C117 fails: `a = std::move(a)` leaks the whole tree. -/
theorem C117_counterexample_self_move : ¬ C117_statement Nat :=
  leak_witness [.call 0 (.insert 7), .move 0 0, .destroy 0] 0 (by decide +kernel)

theorem always_snoc {dflt : α} {P : World α → WOp α → Prop} {ops : List (WOp α)} {op : WOp α} {outs : List (Option Avl.Out)} {w : World α}
    (h : World.init.run dflt ops = .ok (outs, w)) : Always dflt P (ops ++ [op]) ↔ Always dflt P ops ∧ P w op := by
  refine ⟨fun ha => ⟨fun pre a post o v e hr => ha pre a (post ++ [op]) o v (by simp [e]) hr, ha ops op [] outs w (by simp) h⟩,
    fun ⟨ha, hp⟩ pre a post o v e hr => ?_⟩
  rcases List.eq_nil_or_concat post with rfl | ⟨post, b, rfl⟩
  · obtain ⟨rfl, e'⟩ := List.append_inj' e rfl
    cases e'
    rw [h] at hr
    cases hr
    exact hp
  · have e : ops ++ [op] = (pre ++ a :: post) ++ [b] := by simpa using e
    obtain ⟨e, -⟩ := List.append_inj' e rfl
    exact ha pre a post o v e hr

/-- C117, exactly when it fails: a node is lost at the end if and only if some assignment overwrote a non-empty tree (by a
non-empty one, or by a move). -/
theorem C117_exact (dflt : α) (ops : List (WOp α)) :
    ∃ outs w, World.init.run dflt ops = .ok (outs, w) ∧
      ((∀ i c, w.s.mem i = some c → ∃ k, InTree w.s k i) ↔ Always dflt ToEmpty ops) := by
  obtain ⟨outs, w, h1, T, h2, -, h3, h4⟩ := run_ind dflt (fun _ _ => True)
    (fun ops outs w => ∃ T, Inv w.s T ∧ World.init.run dflt ops = .ok (outs, w) ∧ (Always dflt ToEmpty ops → NoLeak w.s T) ∧
      (¬ Always dflt ToEmpty ops → ∃ i, Lost w.s T i))
    ⟨_, inv_init, rfl, fun _ => noLeak_init, fun h => absurd (fun pre op post _ _ e => by simp at e) h⟩
    (fun ops outs w op ⟨T, h, hr, hl, hn⟩ _ => by
      obtain ⟨out, w', T', h1, h2, h3, -, h4, h5⟩ := world_step dflt h op
      refine ⟨out, w', h1, T', h2, ?_, fun ha => ?_, fun ha => ?_⟩
      · rw [run_append dflt ops [op] hr]
        simp [World.run, h1]
      · rw [always_snoc hr] at ha
        exact h3 ha.2 (hl ha.1)
      · rw [always_snoc hr, not_and] at ha
        by_cases hp : Always dflt ToEmpty ops
        · exact h5 (ha hp)
        · obtain ⟨i, hi⟩ := hn hp
          exact ⟨i, h4 i hi⟩)
    ops (fun _ _ _ _ _ _ _ => trivial)
  refine ⟨outs, w, h1, fun hc => ?_, fun ha i c hi => ?_⟩
  · by_contra hn
    obtain ⟨i, ⟨c, hi⟩, hk⟩ := h4 hn
    obtain ⟨k, hin⟩ := hc i c hi
    exact hk k (h2.inTree.1 hin)
  · obtain ⟨k, hk⟩ := h3 ha i c hi
    exact ⟨k, h2.inTree.2 hk⟩

/-- C117: a node that is lost stays lost: no later operation frees it or brings it back. -/
theorem C117_lost_for_ever (dflt : α) (ops more : List (WOp α)) (outs : List (Option Avl.Out)) (w : World α)
    (h : World.init.run dflt ops = .ok (outs, w)) (i : Nat) (c : Cell α) (hi : w.s.mem i = some c) (hl : ∀ k, ¬ InTree w.s k i) :
    ∃ outs' w', World.init.run dflt (ops ++ more) = .ok (outs', w') ∧ (∃ c', w'.s.mem i = some c') ∧ ∀ k, ¬ InTree w'.s k i := by
  have go : ∀ (more : List (WOp α)) (w : World α) (T : Nat → Tree α), Inv w.s T → Lost w.s T i →
      ∃ outs w' T', w.run dflt more = .ok (outs, w') ∧ Inv w'.s T' ∧ Lost w'.s T' i := by
    intro more
    induction more with
    | nil => intro w T h hl; exact ⟨[], w, T, rfl, h, hl⟩
    | cons op more ih =>
      intro w T h hl
      obtain ⟨out, w', T', h1, h2, -, -, h4, -⟩ := world_step dflt h op
      obtain ⟨outs, w2, T2, e, h5, h6⟩ := ih w' T' h2 (h4 i hl)
      exact ⟨out :: outs, w2, T2, by simp only [World.run, h1, Res.bind_ok, e], h5, h6⟩
  obtain ⟨outs0, w0, h1, T, hT⟩ := run_ind dflt (fun _ _ => True) (fun _ _ w => ∃ T, Inv w.s T) ⟨_, inv_init⟩
    (fun _ _ w op ⟨T, h⟩ _ => by
      obtain ⟨out, w', T', h1, h2, -⟩ := world_step dflt h op
      exact ⟨out, w', h1, T', h2⟩)
    ops (fun _ _ _ _ _ _ _ => trivial)
  rw [h] at h1
  cases h1
  obtain ⟨outs', w', T', e, h2, h3, h4⟩ := go more w T hT ⟨⟨c, hi⟩, fun k hk => hl k (hT.inTree.2 hk)⟩
  refine ⟨_, w', by rw [run_append dflt ops more h, e]; rfl, h3, fun k hk => h4 k (h2.inTree.1 hk)⟩

/-- C117, the part that holds: if every assignment goes to a tree that is empty at that time (which includes all
constructions) or copies an empty one, every allocated node is reachable from a tree, and when all trees are empty no node is
left.  Missing: the other assignments, all of which lose nodes (`C117_exact`). -/
theorem C117_no_leak_partial (dflt : α) (ops : List (WOp α)) (hc : Always dflt ToEmpty ops) :
    ∃ outs w, World.init.run dflt ops = .ok (outs, w) ∧ (∀ i c, w.s.mem i = some c → ∃ k, InTree w.s k i) ∧
      ((∀ k, w.s.roots k = none) → ∀ i, w.s.mem i = none) := by
  obtain ⟨outs, w, h1, T, h2, h3⟩ := run_ind dflt ToEmpty (fun _ _ w => ∃ T, Inv w.s T ∧ NoLeak w.s T)
    ⟨_, inv_init, noLeak_init⟩
    (fun _ _ w op ⟨T, h, hl⟩ hP => by
      obtain ⟨out, w', T', h1, h2, h3, -⟩ := world_step dflt h op
      exact ⟨out, w', h1, T', h2, h3 hP hl⟩)
    ops hc
  refine ⟨outs, w, h1, fun i c hi => ?_, fun hroots i => ?_⟩
  · obtain ⟨k, hk⟩ := h3 i c hi
    exact ⟨k, h2.inTree.2 hk⟩
  · cases hi : w.s.mem i with
    | none => rfl
    | some c =>
      obtain ⟨k, hk⟩ := h3 i c hi
      have : T k = .nil := ptr_none.1 (by rw [← h2.root k]; exact hroots k)
      rw [this] at hk
      cases hk

/-- Without assignments the hypothesis always holds. -/
theorem toEmpty_calls (dflt : α) (ops : List (WOp α)) (h : ∀ op ∈ ops, ∀ k j, op ≠ .copy k j ∧ op ≠ .move k j) :
    Always dflt ToEmpty ops := by
  intro pre op post outs w e _
  have := h op (by simp [e])
  cases op with
  | copy k j => exact absurd rfl (this k j).1
  | move k j => exact absurd rfl (this k j).2
  | _ => trivial

/-- A copy of an empty tree leaves the target, and nothing is lost. -/
example : dump (World.init.run 0 [.call 0 (.insert 1), .copy 0 1, .destroy 0]) = some [none] := by decide +kernel
example : dump (World.init.run 0 [.call 0 (.insert 1), .call 0 (.insert 2), .copy 1 0, .call 0 .clear, .move 0 1, .destroy 0]) =
    some [none, none, none, none] := by decide +kernel
example : Always 0 ToEmpty [.call 0 (.insert 3), .call 1 (.insert (4 : Nat)), .destroy 0] :=
  toEmpty_calls 0 _ (by intro op h k j; simp at h; rcases h with rfl | rfl | rfl <;> simp)

/-! ### C118 several trees -/

/-- What C118 claims of a world: tree `k` holds, in order, the values of its multiset, and its counter is their number. -/
def Shows (w : World α) (k : Nat) (m : MSet α) (sized : Bool) : Prop :=
  ∃ xs, Reads w.s (w.s.roots k) xs ∧ xs.Pairwise (· ≤ ·) ∧ (∀ x, xs.count x = m.mult x) ∧ (w.obj k).dups = m.dups ∧
    (sized = true → (w.obj k).size = xs.length % W)

/-- The full claim of C118: any program over any number of trees behaves as if the trees were independent multisets, copied
and moved as values; the results of all calls, the contents, and the counters agree. -/
def C118_statement (α : Type) [LinearOrder α] : Prop :=
  ∀ (dflt : α) (ops : List (WOp α)), ∃ outs w, World.init.run dflt ops = .ok (outs, w) ∧
    outs = (Store.init.run ops).2 ∧ ∀ k, Shows w k ((Store.init.run ops).1.sets k) true

theorem shows_nil {w : World α} {k : Nat} {m : MSet α} {b : Bool} (h : Shows w k m b) (hr : w.s.roots k = none) :
    (∀ x, m.mult x = 0) ∧ (b = true → (w.obj k).size = 0) := by
  obtain ⟨xs, h1, -, h3, -, h5⟩ := h
  rw [hr] at h1
  cases h1
  exact ⟨fun x => (h3 x).symm, h5⟩

/-- The counter of tree `k` is not zero though the tree is empty. -/
def stray (ops : List (WOp Nat)) (k : Nat) : Bool :=
  match World.init.run 0 ops with
  | .ok (_, w) => (w.s.roots k).isNone && (w.obj k).size != 0
  | _ => false

theorem stray_witness (ops : List (WOp Nat)) (k : Nat) (hk : stray ops k = true) : ¬ C118_statement Nat := by
  intro h
  obtain ⟨outs, w, h1, -, h3⟩ := h 0 ops
  simp only [stray, h1, Bool.and_eq_true, Option.isNone_iff_eq_none, bne_iff_ne] at hk
  exact hk.2 ((shows_nil (h3 k) hk.1).2 rfl)

/-- C118 fails: a tree that was moved from is empty, but `size()` still returns the old number. -/
theorem C118_counterexample : ¬ C118_statement Nat := stray_witness [.call 0 (.insert 7), .move 1 0] 0 (by decide +kernel)

/-- C118 fails: `a = std::move(a)` empties the tree. -/
theorem C118_counterexample_self_move : ¬ C118_statement Nat := stray_witness [.call 0 (.insert 7), .move 0 0] 0 (by decide +kernel)

/-- C118 fails: `a = b` with an empty `b` leaves the values in `a`. -/
theorem C118_counterexample_empty : ¬ C118_statement Nat := by
  intro h
  obtain ⟨outs, w, h1, h2, -⟩ := h 0 [.call 0 (.insert 7), .copy 0 1, .call 0 (.remove 7)]
  have e : (match World.init.run 0 [.call 0 (.insert 7), .copy 0 1, .call 0 (.remove 7)] with
    | .ok (outs, _) => outs | _ => []) = [some (.bool true), none, some (.bool true)] := by decide +kernel
  rw [h1] at e
  simp only at e
  rw [e] at h2
  revert h2
  decide +kernel

/-- C118 fails: `a = a` replaces all values of the tree by one default value. -/
theorem C118_counterexample_self : ¬ C118_statement Nat := by
  intro h
  obtain ⟨outs, w, h1, h2, -⟩ := h 0 [.call 0 (.insert 7), .copy 0 0, .call 0 (.remove 7)]
  have e : (match World.init.run 0 [.call 0 (.insert 7), .copy 0 0, .call 0 (.remove 7)] with
    | .ok (outs, _) => outs | _ => []) = [some (.bool true), none, some (.bool false)] := by decide +kernel
  rw [h1] at e
  simp only at e
  rw [e] at h2
  revert h2
  decide +kernel

/-- C118, the part that holds: without self-assignment and without copying an empty tree to a non-empty one, all results and
contents agree, and so do the counters of all trees that were not moved from (since they were last cleared or assigned).
Missing: those two kinds of assignment, and the counters of trees moved from. -/
theorem C118_independent_partial (dflt : α) (ops : List (WOp α)) (hc : Always dflt Sane ops) :
    ∃ outs w, World.init.run dflt ops = .ok (outs, w) ∧ outs = (Store.init.run ops).2 ∧
      ∀ k, Shows w k ((Store.init.run ops).1.sets k) (!(Store.init.run ops).1.stale k) := by
  obtain ⟨outs, w, h1, h2, T, h3, h4⟩ := run_ind dflt Sane
    (fun ops outs w => outs = (Store.init.run ops).2 ∧ ∃ T, Inv w.s T ∧ Meaning w T (Store.init.run ops).1)
    ⟨rfl, _, inv_init, fun k => means_empty⟩
    (fun ops outs w op ⟨he, T, h, hm⟩ hP => by
      obtain ⟨w', T', h1, h2, h3⟩ := world_means dflt h hm op hP
      obtain ⟨e1, e2⟩ := store_append ops op Store.init
      exact ⟨_, w', h1, by rw [e2, he], T', h2, by rw [e1]; exact h3⟩)
    ops hc
  refine ⟨outs, w, h1, h2, fun k => ⟨inorder (T k), ?_, (h4 k).sorted, (h4 k).mult, (h4 k).dups, fun hb => ?_⟩⟩
  · rw [h3.root k]
    exact reads_rep (h3.rep k)
  · exact (h4 k).size (by simpa using hb)

/-- The reading is unique, so the contents of a tree are determined. -/
theorem C118_reading_unique (s : St α) (p : Ptr) (xs ys : List α) (h1 : Reads s p xs) (h2 : Reads s p ys) : xs = ys :=
  reads_unique h1 h2

/-- A copy does not see the later changes of the original, and the other way round. -/
example : (match World.init.run 0 [.call 0 (.insert 1), .call 0 (.insert 2), .copy 1 0, .call 0 (.remove 1), .call 1 (.remove 1),
    .call 1 (.remove 1), .call 0 (.insert 2), .move 2 0, .call 2 (.remove 2), .call 0 (.remove 2)] with
    | .ok (outs, _) => outs | _ => []) =
    [some (.bool true), some (.bool true), none, some (.bool true), some (.bool true), some (.bool false), some (.bool false),
      none, some (.bool true), some (.bool false)] := by decide +kernel
example : objs (World.init.run 0 [.call 0 (.insert 1), .call 0 (.insert 2), .copy 1 0, .move 2 0]) =
    some [(none, 2), (some 2, 2), (some 0, 2)] := by decide +kernel

/-! ### C119 references into a tree -/

/-- C119: `insert`, called with a reference to the value of any live node (also of the same tree), does what it does with a
copy of the value. -/
theorem C119_insert {dflt : α} {ops : List (WOp α)} {outs : List (Option Avl.Out)} {w : World α}
    (h : World.init.run dflt ops = .ok (outs, w)) (k i : Nat) (c : Cell α) (hi : w.s.mem i = some c) :
    ∃ b o s1 s2, callInsert w.s k (w.obj k) (.node i) = .ok (b, o, s1) ∧
      callInsert w.s k (w.obj k) (.val c.val) = .ok (b, o, s2) ∧ Same s1 s2 := by
  obtain ⟨T, hT⟩ := world_inv' h
  obtain ⟨s1, e1, i1, -⟩ := callInsert_inv hT k (w.obj k) (ref := .node i) (x := c.val) (by simp [deref, cell, hi])
  obtain ⟨s2, e2, i2, -⟩ := callInsert_inv hT k (w.obj k) (ref := .val c.val) (x := c.val) rfl
  exact ⟨_, _, s1, s2, e1, e2, i1.same i2⟩

/-- C119: the same for `remove`, though it may overwrite or delete the node that the reference points to. -/
theorem C119_remove {dflt : α} {ops : List (WOp α)} {outs : List (Option Avl.Out)} {w : World α}
    (h : World.init.run dflt ops = .ok (outs, w)) (k i : Nat) (c : Cell α) (hi : w.s.mem i = some c) :
    ∃ b o s1 s2, callRemove w.s k (w.obj k) (.node i) = .ok (b, o, s1) ∧
      callRemove w.s k (w.obj k) (.val c.val) = .ok (b, o, s2) ∧ Same s1 s2 := by
  obtain ⟨T, hT⟩ := world_inv' h
  obtain ⟨s1, e1, i1, -⟩ := callRemove_inv hT k (w.obj k) (ref := .node i) (x := c.val) fun _ => by simp [deref, cell, hi]
  obtain ⟨s2, e2, i2, -⟩ := callRemove_inv hT k (w.obj k) (ref := .val c.val) (x := c.val) fun _ => rfl
  exact ⟨_, _, s1, s2, e1, e2, i1.same i2⟩

/-- C119: the same for `contains`. -/
theorem C119_contains {dflt : α} {ops : List (WOp α)} {outs : List (Option Avl.Out)} {w : World α}
    (h : World.init.run dflt ops = .ok (outs, w)) (k i : Nat) (c : Cell α) (hi : w.s.mem i = some c) :
    callContains w.s k (.node i) = callContains w.s k (.val c.val) ∧ (callContains w.s k (.val c.val)).isOk = true := by
  obtain ⟨T, hT⟩ := world_inv' h
  rw [callContains_inv hT k (ref := .node i) (x := c.val) (by simp [deref, cell, hi]),
    callContains_inv hT k (ref := .val c.val) (x := c.val) rfl]
  exact ⟨rfl, rfl⟩

/-- `t.remove(t.root().get())` on 1, 2, 3: the root node gets the value 3, and the old node of 3 is deleted. -/
example : (match World.init.run 0 [.call 0 (.insert 1), .call 0 (.insert 2), .call 0 (.insert 3)] with
    | .ok (_, w) => (match callRemove w.s 0 (w.obj 0) (.node 1) with
      | .ok (b, o, s) => some (b, o.size, s.roots 0, (List.range 3).map s.mem)
      | _ => none)
    | _ => none) =
    some (true, 2, some 1, [some ⟨some 1, 1, 1, none, none⟩, some ⟨none, 3, 2, some 0, none⟩, none]) := by decide +kernel

/-! ### C120 remove_all with a reference into the tree -/

/-- The full claim of C120: `remove_all`, called with a reference to the value of any live node, does what it does with a copy
of the value. -/
def C120_statement (α : Type) [LinearOrder α] : Prop :=
  ∀ (dflt : α) (ops : List (WOp α)) (outs : List (Option Avl.Out)) (w : World α), World.init.run dflt ops = .ok (outs, w) →
    ∀ k i c, w.s.mem i = some c →
      ∃ n o s1 s2, callRemoveAll w.s.fuel w.s k (w.obj k) (.node i) 0 = .ok (n, o, s1) ∧
        callRemoveAll w.s.fuel w.s k (w.obj k) (.val c.val) 0 = .ok (n, o, s2) ∧ Same s1 s2

/-- C120 fails for every tree of at least two values without duplicates, and every node of it: after some rounds of the loop,
each of which removes a value (the wrong one from the second round on), the node is deleted, and the next round reads the
value of the deleted node. -/
theorem C120_undefined {dflt : α} {ops : List (WOp α)} {outs : List (Option Avl.Out)} {w : World α}
    (h : World.init.run dflt ops = .ok (outs, w)) (k i : Nat) (xs : List α) (hr : Reads w.s (w.s.roots k) xs)
    (hs : xs.Pairwise (· < ·)) (h2 : 2 ≤ xs.length) (hi : InTree w.s k i) :
    (∃ n o s, rounds (n + 1) w.s k (w.obj k) (.node i) = .ok (o, s) ∧ s.mem i = none ∧ s.roots k ≠ none ∧
      callRemove s k o (.node i) = .ub) ∧
    callRemoveAll w.s.fuel w.s k (w.obj k) (.node i) 0 = .ub := by
  obtain ⟨T, hT⟩ := world_inv' h
  have hx : xs = inorder (T k) := reads_unique hr (by rw [hT.root k]; exact reads_rep (hT.rep k))
  have hsz : xs.length = sz (T k) := by
    rw [hx]
    generalize T k = t
    induction t with
    | nil => rfl
    | node j p v hh l r ihl ihr => simp only [inorder, List.length_append, List.length_cons, ihl, ihr, sz]; omega
  obtain ⟨n, o, s, e1, e2, e3, e4⟩ := ref_rounds k i (sz (T k)) w.s T (w.obj k) (Nat.le_refl _) (by omega) hT (by rw [← hx]; exact hs)
    (hT.inTree.1 hi)
  exact ⟨⟨n, o, s, e1, e2, e3, e4⟩, removeAll_ub k (n + 1) _ _ _ _ e1 e4⟩

/-- C120 fails: on a tree with the values 1 and 2, `t.remove_all(t.root().get())` reads a deleted node. -/
theorem C120_counterexample : ¬ C120_statement Nat := by
  intro h
  have e : (match World.init.run 0 [.call 0 (.insert 1), .call 0 (.insert 2)] with
    | .ok (_, w) => decide (w.s.mem 0 ≠ none) && decide ((callRemoveAll w.s.fuel w.s 0 (w.obj 0) (.node 0) 0).isOk = false)
    | _ => false) = true := by decide +kernel
  cases hx : World.init.run (0 : Nat) [.call 0 (.insert 1), .call 0 (.insert 2)] with
  | ok p =>
    obtain ⟨outs, w⟩ := p
    rw [hx] at e
    simp only [Bool.and_eq_true, decide_eq_true_eq] at e
    obtain ⟨c, hc⟩ := Option.ne_none_iff_exists'.1 e.1
    obtain ⟨n, o, s1, s2, h1, -⟩ := h _ _ outs w hx 0 0 c hc
    rw [h1] at e
    cases e.2
  | exc x => rw [hx] at e; cases e
  | ub => rw [hx] at e; cases e

/-- C120, the part that holds: the node belongs to another tree.  Missing: the nodes of the tree itself, where
`C120_undefined` shows that the call is UB. -/
theorem C120_other_tree_partial {dflt : α} {ops : List (WOp α)} {outs : List (Option Avl.Out)} {w : World α}
    (h : World.init.run dflt ops = .ok (outs, w)) (k j i : Nat) (c : Cell α) (hkj : j ≠ k) (hj : InTree w.s j i)
    (hi : w.s.mem i = some c) :
    ∃ n o s1 s2, callRemoveAll w.s.fuel w.s k (w.obj k) (.node i) 0 = .ok (n, o, s1) ∧
      callRemoveAll w.s.fuel w.s k (w.obj k) (.val c.val) 0 = .ok (n, o, s2) ∧ Same s1 s2 := by
  obtain ⟨T, hT⟩ := world_inv' h
  obtain ⟨c', h1, hv⟩ := rep_hasVal (hT.rep j) (hT.inTree.1 hj)
  rw [hi] at h1
  injection h1 with h1
  subst h1
  obtain ⟨a', out, s', -, e, -, -⟩ := Mem.step_inv hT k (w.obj k) (.removeAll c.val)
  rcases removeAll_other k j i c.val hkj w.s.fuel w.s w.s T (w.obj k) 0 hT hT hv with ⟨-, hub⟩ | ⟨n, o, s1, s2, T', e1, e2, i1, i2⟩
  · simp only [Mem.step, hub, Res.bind_ub] at e
    cases e
  · exact ⟨n, o, s1, s2, e1, e2, i1.same i2⟩

/-- With values 1, 2, 3: the first round removes 2, the second 3 — which nobody asked for —, the third is UB. -/
example : (match World.init.run 0 [.call 0 (.insert 1), .call 0 (.insert 2), .call 0 (.insert 3)] with
    | .ok (_, w) => (match rounds 2 w.s 0 (w.obj 0) (.node 1) with
      | .ok (o, s) => some (o.size, (List.range 3).map s.mem, callRemove s 0 o (.node 1) |>.isOk)
      | _ => none)
    | _ => none) = some (1, [some ⟨none, 1, 1, none, none⟩, none, none], false) := by decide +kernel
/-- With duplicates the call may succeed. -/
example : (match World.init.run 0 [.call 0 .enableDuplicates, .call 0 (.insert 5), .call 0 (.insert 5)] with
    | .ok (_, w) => (match callRemoveAll w.s.fuel w.s 0 (w.obj 0) (.node 1) 0 with
      | .ok (n, _, _) => some n
      | _ => none)
    | _ => none) = some 2 := by decide +kernel

end Verif.Mem
