import Verif.Mem.BinThrowStep

/-! Property C159: programs over plain binary trees in which allocations and copies of elements throw. -/

namespace Verif.Mem
open Avl (Tree)
open Avl.Spec (ParentsExact)
open Spec
variable {α : Type}

structure StepTOk (dflt : α) (s : St α) (T : Nat → Tree α) (op : BOp α) (f : Option Fault) (o : Option BOut) (s' : St α) (T' : Nat → Tree α) : Prop where
  run : bstepT dflt s op f = .ok (o, s')
  inv : Inv s' T'
  spec : BFaithful s op → bspecT dflt (fun k => erase (T k)) op f = (o, fun k => erase (T' k))
  noLeak : BEither dflt Tidy BTidyCut s op f → NoLeak s T → NoLeak s' T'
  par : BEither dflt BLocal (BLocalCut dflt) s op f → (∀ k, ParentsExact none (T k)) → ∀ k, ParentsExact none (T' k)
  lost : ∀ i, Lost s T i → Lost s' T' i
  new : ¬ BEither dflt Tidy BTidyCut s op f → ∃ i, Lost s' T' i

theorem faithful_sane {s : St α} {T : Nat → Tree α} (h : Inv s T) {op : BOp α} (hf : BFaithful s op) :
    NodeSane op ∧ TreeSane (fun k => erase (T k)) op := by
  cases op with
  | copy k j =>
    refine ⟨trivial, hf.1, fun he => ?_⟩
    have : s.roots k = none := hf.2 (by rw [h.root, erase_nil.1 he]; rfl)
    have : T k = .nil := ptr_none.1 (by rw [← h.root k]; exact this)
    simp only [this, erase]
  | move k j => exact ⟨trivial, hf⟩
  | assign k p j q => exact ⟨hf, trivial⟩
  | moveAssign k p j q => exact ⟨hf, trivial⟩
  | _ => exact ⟨trivial, trivial⟩

theorem bstepT_ok (dflt : α) {s : St α} {T : Nat → Tree α} (h : Inv s T) (op : BOp α) (f : Option Fault) (hs : NodeSafe op) :
    ∃ o s' T', StepTOk dflt s T op f o s' T' := by
  obtain ⟨o, s1, T1, hok⟩ := bstep_ok dflt h op hs
  have hspec : BFaithful s op → bspec (fun k => erase (T k)) op = (o, fun k => erase (T1 k)) := fun hf =>
    hok.spec (faithful_sane h hf).1 (faithful_sane h hf).2
  cases f with
  | none =>
    refine ⟨some o, s1, T1, by simp only [bstepT, hok.run, Res.bind_ok], hok.inv, fun hf => ?_, hok.noLeak, fun hl => hok.par hl.1 hl.2, hok.lost, hok.new⟩
    simp only [bspecT, hspec hf]
  | some f =>
    rcases bcut_good dflt h op f hs with ⟨s', T', hcut⟩ | ⟨h1, h2⟩
    · refine ⟨none, s', T', by simp only [bstepT, hcut.run, Res.bind_ok], hcut.inv, fun hf => ?_, fun ht => ?_, fun ht => ?_, hcut.lost, fun ht => ?_⟩
      · simp only [bspecT, hcut.spec hf]
      · simp only [BEither, hcut.run] at ht
        exact hcut.noLeak ht
      · simp only [BEither, hcut.run] at ht
        exact hcut.par ht
      · simp only [BEither, hcut.run] at ht
        exact hcut.new ht
    · refine ⟨some o, s1, T1, by simp only [bstepT, h1, hok.run, Res.bind_ok], hok.inv, fun hf => ?_, fun ht => ?_, fun ht => ?_, hok.lost, fun ht => ?_⟩
      · simp only [bspecT, h2 hf, hspec hf]
      · simp only [BEither, h1] at ht
        exact hok.noLeak ht
      · simp only [BEither, h1] at ht
        exact hok.par ht.1 ht.2
      · simp only [BEither, h1] at ht
        exact hok.new ht

theorem brunT_ok (dflt : α) : ∀ (ops : List (BOp α × Option Fault)) (s : St α) (T : Nat → Tree α), Inv s T → (∀ op ∈ ops, NodeSafe op.1) →
    ∃ outs s' T', brunT dflt s ops = .ok (outs, s') ∧ Inv s' T' ∧
      (BAlwaysT dflt BFaithful (fun s op _ => BFaithful s op) s ops →
        brunTSpec dflt (fun k => erase (T k)) ops = (outs, fun k => erase (T' k))) ∧
      (BAlwaysT dflt Tidy BTidyCut s ops → NoLeak s T → NoLeak s' T') ∧
      (BAlwaysT dflt BLocal (BLocalCut dflt) s ops → (∀ k, ParentsExact none (T k)) → ∀ k, ParentsExact none (T' k)) ∧
      (∀ i, Lost s T i → Lost s' T' i) ∧
      (¬ BAlwaysT dflt Tidy BTidyCut s ops → ∃ i, Lost s' T' i) := by
  intro ops
  induction ops with
  | nil => intro s T h _; exact ⟨[], s, T, rfl, h, fun _ => rfl, fun _ => id, fun _ => id, fun _ => id, fun hn => absurd trivial hn⟩
  | cons op ops ih =>
    obtain ⟨op, f⟩ := op
    intro s T h hs
    obtain ⟨o, s1, T1, hok⟩ := bstepT_ok dflt h op f (hs (op, f) (by simp))
    obtain ⟨outs, s2, T2, e, i2, h1, h2, h3, h4, h5⟩ := ih s1 T1 hok.inv fun op hm => hs op (by simp [hm])
    refine ⟨o :: outs, s2, T2, by simp only [brunT, hok.run, Res.bind_ok, e], i2, fun ha => ?_, fun ha hn => h2 (ha.2 o s1 hok.run) (hok.noLeak ha.1 hn),
      fun ha hp => h3 (ha.2 o s1 hok.run) (hok.par ha.1 hp), fun i hi => h4 i (hok.lost i hi), fun hn => ?_⟩
    · have hf : BFaithful s op := by
        have ha := ha.1
        cases f with
        | none => exact ha
        | some f =>
          unfold BEither at ha
          simp only at ha
          split at ha <;> exact ha
      simp only [brunTSpec, hok.spec hf, h1 (ha.2 o s1 hok.run)]
    · by_cases ht : BEither dflt Tidy BTidyCut s op f
      · refine h5 fun ha => hn ⟨ht, fun o' s' hr => ?_⟩
        rw [hok.run] at hr
        cases hr
        exact ha
      · obtain ⟨i, hi⟩ := hok.new ht
        exact ⟨i, h4 i hi⟩

/-! ### C159 -/

/-- The full claim of C159: a statement that throws leaves the contents of every tree, the parents and the allocated nodes as they were. -/
def C159_statement (α : Type) : Prop :=
  ∀ (dflt : α) (ops : List (BOp α × Option Fault)) (outs : List (Option BOut)) (s s' : St α) (op : BOp α) (f : Fault),
    brunT dflt St.empty ops = .ok (outs, s) → bstepT dflt s op (some f) = .ok (none, s') →
    (∀ k t, Looks s (s.roots k) t → Looks s' (s'.roots k) t) ∧
    (∀ i, (s'.mem i).isSome = (s.mem i).isSome) ∧ ∀ i c c', s.mem i = some c → s'.mem i = some c' → c'.par = c.par

/-- C159: whatever throws, the program can go on: without the assignments of `C122_undefined_iff`, it runs to its end without UB, every pointer in a tree
leads to an allocated node, and no node is reachable in two ways.  If moreover the assignments are those of C123, then the same statements throw as in
the program over immutable values, with the same results otherwise, and the contents are those of `brunTSpec`: in particular the parts of a copy that
`partNode` describes.  Missing: the assignments of C122 and C123. -/
theorem C159_basic_partial (dflt : α) (ops : List (BOp α × Option Fault)) (hs : ∀ op ∈ ops, NodeSafe op.1) :
    ∃ outs s, brunT dflt St.empty ops = .ok (outs, s) ∧
      (∀ k path i, follow s (s.roots k) path = some i → ∃ c, s.mem i = some c) ∧
      (∀ k path k' path' i, follow s (s.roots k) path = some i → follow s (s.roots k') path' = some i → k = k' ∧ path = path') ∧
      (BAlwaysT dflt BFaithful (fun s op _ => BFaithful s op) St.empty ops →
        outs = (brunTSpec dflt (fun _ => .nil) ops).1 ∧ ∀ k, Looks s (s.roots k) ((brunTSpec dflt (fun _ => .nil) ops).2 k)) := by
  obtain ⟨outs, s, T, e, hT, h1, -⟩ := brunT_ok dflt ops St.empty _ inv_empty hs
  refine ⟨outs, s, e, fun k path i hp => (hT.rep k).some (hT.inTree.1 ⟨path, hp⟩), fun k path k' path' i hp hp' => hT.paths hp hp', fun hf => ?_⟩
  have h1 : brunTSpec dflt (fun _ => .nil) ops = (outs, fun k => erase (T k)) := h1 hf
  refine ⟨by rw [h1], fun k => ?_⟩
  rw [h1, hT.root k]
  exact looks_rep (hT.rep k)

/-- The number of nodes. -/
def Spec.BT.count : BT α → Nat
  | .nil => 0
  | .node _ l r => 1 + l.count + r.count

theorem partChild_count (dflt : α) (t : BT α) : ∀ n, (partChild dflt n t).1 = if n < 2 * t.count then none else some (n - 2 * t.count) := by
  induction t with
  | nil => intro n; simp [partChild, Spec.BT.count]
  | node v l r ihl ihr =>
    intro n
    cases n with
    | zero => rw [if_pos (by unfold Spec.BT.count; omega)]; rfl
    | succ n =>
      have hl := ihl n
      have hc : (BT.node v l r).count = 1 + l.count + r.count := rfl
      simp only [partChild, partBody]
      generalize partChild dflt n l = x at hl
      obtain ⟨a, t⟩ := x
      simp only at hl
      by_cases h1 : n < 2 * l.count
      · rw [if_pos h1] at hl
        rw [hl, if_pos (by omega)]
      · rw [if_neg h1] at hl
        have hr := ihr (n - 2 * l.count)
        rw [hl]
        simp only
        generalize partChild dflt (n - 2 * l.count) r = y at hr
        obtain ⟨b, u⟩ := y
        simp only at hr
        by_cases h2 : n - 2 * l.count < 2 * r.count
        · rw [if_pos h2] at hr
          rw [hr, if_pos (by omega)]
        · rw [if_neg h2] at hr
          rw [hr]
          cases hm : n - 2 * l.count - 2 * r.count with
          | zero => rw [if_pos (by omega)]
          | succ m => rw [if_neg (by omega)]; simp only [Option.some.injEq]; omega

/-- C159, when a copy throws: the assignment of a node throws if and only if one of its `2 * m - 1` operations does, for a subtree of `m` nodes: a `new` for
each node but the first, and an assignment of a value for each.  The copy of a tree has one more, the `new` of the root. -/
theorem C159_points (dflt old : α) (n : Nat) (t : BT α) (ht : t ≠ .nil) : (partNode dflt n old t).1 = none ↔ n < 2 * t.count - 1 := by
  cases t with
  | nil => exact absurd rfl ht
  | node v l r =>
    have hl := partChild_count dflt l n
    simp only [partNode, partBody, Spec.BT.count]
    generalize partChild dflt n l = x at hl
    obtain ⟨a, t⟩ := x
    simp only at hl
    by_cases h1 : n < 2 * l.count
    · rw [if_pos h1] at hl
      rw [hl]
      simp only [true_iff]
      omega
    · rw [if_neg h1] at hl
      have hr := partChild_count dflt r (n - 2 * l.count)
      rw [hl]
      simp only
      generalize partChild dflt (n - 2 * l.count) r = y at hr
      obtain ⟨b, u⟩ := y
      simp only at hr
      by_cases h2 : n - 2 * l.count < 2 * r.count
      · rw [if_pos h2] at hr
        rw [hr]
        simp only [true_iff]
        omega
      · rw [if_neg h2] at hr
        rw [hr]
        cases hm : n - 2 * l.count - 2 * r.count with
        | zero => simp only [true_iff]; omega
        | succ m => simp only [reduceCtorEq, false_iff]; omega

/-- C159: the copy with exceptions is the one of C122 as long as nothing throws. -/
theorem C159_same_copy (dflt : α) (fuel n : Nat) (s : St α) (dst src m : Nat) (s' : St α)
    (h : copyNodeT dflt fuel n s dst src = .ok (some m, s')) : copyNode dflt fuel s dst src = .ok s' := copyNodeT_some dflt fuel n s dst src m s' h

/-- The statements that change nothing at all when they throw at the point. -/
def BStrong : BOp α → Fault → Prop
  | .addLeft _ _ _, _ | .addRight _ _ _, _ | .setValue _ _ _, _ => True
  | .swap _ _ _, f => f.n ≠ 2
  | .copy _ _, f => f.n = 0
  | _, _ => False

theorem bonCut_some {s s' : St α} {k : Nat} {p : List Bool} {f : Nat → Res (Option (St α))} (h : bonCut s k p f = .ok (some s')) :
    ∃ i, f i = .ok (some s') := by
  unfold bonCut at h
  cases hr : resolve s (s.roots k) p with
  | ok i => rw [hr] at h; exact ⟨i, h⟩
  | exc e => rw [hr] at h; cases h
  | ub => rw [hr] at h; cases h

theorem bstepT_none {dflt : α} {s s' : St α} {op : BOp α} {f : Fault} (h : bstepT dflt s op (some f) = .ok (none, s')) :
    bcut dflt s op f = .ok (some s') := by
  simp only [bstepT, Res.bind_eq_ok] at h
  obtain ⟨r, h1, h2⟩ := h
  cases r with
  | some t => cases h2; exact h1
  | none =>
    simp only [Res.bind_eq_ok, Prod.exists] at h2
    obtain ⟨o, t, -, h3⟩ := h2
    cases h3

theorem swapT_strong {s s' : St α} {i n : Nat} {c : Ptr} (hn : n ≠ 2) (h : swapT s i c n = .ok (some s')) : s' = s := by
  cases c with
  | none => cases h
  | some l =>
    match n, hn with
    | 0, _ => cases h; rfl
    | 1, _ => cases h; rfl
    | n + 3, _ => cases h

theorem pick_some {P : Prop} [Decidable P] {s s' : St α} (h : (Res.ok (if P then some s else none) : Res (Option (St α))) = .ok (some s')) : s' = s := by
  by_cases hp : P
  · rw [if_pos hp] at h; cases h; rfl
  · rw [if_neg hp] at h; cases h

/-- C159, the part that holds: `add_left`, `add_right`, `set_value`, `swap` except at its last copy, and the copy of a tree when its root cannot be made have no effect when they throw, in
any state of any program.  Missing: the other statements and points (see the counterexamples). -/
theorem C159_strong_partial (dflt : α) (s s' : St α) (op : BOp α) (f : Fault) (hs : BStrong op f)
    (h : bstepT dflt s op (some f) = .ok (none, s')) : s' = s := by
  have h := bstepT_none h
  cases op with
  | addLeft k p x =>
    obtain ⟨i, h⟩ := bonCut_some h
    simp only [Res.bind_eq_ok] at h
    obtain ⟨c, -, h⟩ := h
    exact pick_some h
  | addRight k p x =>
    obtain ⟨i, h⟩ := bonCut_some h
    simp only [Res.bind_eq_ok] at h
    obtain ⟨c, -, h⟩ := h
    exact pick_some h
  | setValue k p x =>
    obtain ⟨i, h⟩ := bonCut_some h
    exact pick_some h
  | swap k p dir =>
    obtain ⟨i, h⟩ := bonCut_some h
    simp only [Res.bind_eq_ok] at h
    obtain ⟨c, -, h⟩ := h
    match dir with
    | 0 => exact swapT_strong hs h
    | 1 => exact swapT_strong hs h
    | d + 2 => cases h
  | copy k j =>
    obtain ⟨n, ctor⟩ := f
    obtain rfl : n = 0 := hs
    simp only [bcut, copyTreeT] at h
    cases hj : s.roots j with
    | none => rw [hj] at h; cases h
    | some i => rw [hj] at h; cases h; rfl
  | _ => exact hs.elim

/-- C159, what is lost: for the programs of C122 with any exceptions, something is lost at the end if and only if a statement lost it as in C125, or a copy
of a tree threw after its root was made: always in a constructor, and otherwise if the target had a root. -/
theorem C159_leak (dflt : α) (ops : List (BOp α × Option Fault)) (hs : ∀ op ∈ ops, NodeSafe op.1) :
    ∃ outs s, brunT dflt St.empty ops = .ok (outs, s) ∧
      ((∀ i c, s.mem i = some c → ∃ k, InTree s k i) ↔ BAlwaysT dflt Tidy BTidyCut St.empty ops) ∧
      (BAlwaysT dflt Tidy BTidyCut St.empty ops → (∀ k, s.roots k = none) → ∀ i, s.mem i = none) := by
  obtain ⟨outs, s, T, e, hT, -, h2, -, -, h5⟩ := brunT_ok dflt ops St.empty _ inv_empty hs
  have hyes : BAlwaysT dflt Tidy BTidyCut St.empty ops → NoLeak s T := fun ht => h2 ht fun i c h => by cases h
  refine ⟨outs, s, e, ⟨fun hn => ?_, fun ht i c hi => ?_⟩, fun ht hv i => ?_⟩
  · by_contra hc
    obtain ⟨i, ⟨c, hi⟩, hk⟩ := h5 hc
    obtain ⟨k, hin⟩ := hn i c hi
    exact hk k (hT.inTree.1 hin)
  · obtain ⟨k, hk⟩ := hyes ht i c hi
    exact ⟨k, hT.inTree.2 hk⟩
  · cases hi : s.mem i with
    | none => rfl
    | some c =>
      obtain ⟨k, hk⟩ := hyes ht i c hi
      have : T k = .nil := ptr_none.1 (by rw [← hT.root k]; exact hv k)
      rw [this] at hk
      cases hk

/-- C159, parents: `parent()` is right as in C124, if the assignments that do not throw are those of C124, and those that throw do so in an operation on
the node itself, not within the copy of a child.  Missing: exceptions within the copy of a child (`C159_null_parent`), and the assignments of C124. -/
theorem C159_parent_partial (dflt : α) (ops : List (BOp α × Option Fault)) (hs : ∀ op ∈ ops, NodeSafe op.1)
    (hl : BAlwaysT dflt BLocal (BLocalCut dflt) St.empty ops) :
    ∃ outs s, brunT dflt St.empty ops = .ok (outs, s) ∧
      (∀ k i, s.roots k = some i → parentOf s i = .exc .invalidNode) ∧
      ∀ k path b i, follow s (s.roots k) (path ++ [b]) = some i →
        ∃ j, follow s (s.roots k) path = some j ∧ parentOf s i = .ok j := by
  obtain ⟨outs, s, T, e, hT, -, -, h3, -⟩ := brunT_ok dflt ops St.empty _ inv_empty hs
  replace h3 := h3 hl fun _ => trivial
  refine ⟨outs, s, e, fun k i hi => ?_, fun k path b i hi => ?_⟩
  · rw [hT.root k] at hi
    have h1 := h3 k
    have h2 := hT.rep k
    cases ht : T k with
    | nil => rw [ht] at hi; cases hi
    | node i' p v h l r =>
      rw [ht] at hi h1 h2
      simp only [ptr_node, Option.some.injEq] at hi
      subst hi
      obtain rfl : p = none := h1.1
      simp only [parentOf, cell_eq h2.1, Res.bind_ok]
  · rw [hT.follow] at hi
    simp only [hT.follow]
    have h2 := rep_subAt (path ++ [b]) (hT.rep k)
    cases ht : subAt (T k) (path ++ [b]) with
    | nil => rw [ht] at hi; cases hi
    | node i' p v h l r =>
      rw [ht] at hi h2
      simp only [ptr_node, Option.some.injEq] at hi
      subst hi
      have hp := parents_at path b (h3 k) ht
      cases hpp : subAt (T k) path with
      | nil =>
        rw [subAt_append, hpp] at ht
        cases ht
      | node j _ _ _ _ _ =>
        rw [hpp] at hp
        refine ⟨j, rfl, ?_⟩
        simp only [parentOf, cell_eq h2.1, Res.bind_ok, hp, ptr_node]

/-! The claim fails at every other point -/

/-- Nodes appear or disappear. -/
theorem c159_nodes (ops : List (BOp Nat)) (op : BOp Nat) (f : Fault) (i : Nat)
    (h : (match brunT 0 St.empty (ops.map (·, none)) with
      | .ok (_, s) =>
        match bstepT 0 s op (some f) with
        | .ok (none, s') => decide ((s'.mem i).isSome ≠ (s.mem i).isSome)
        | _ => false
      | _ => false) = true) : ¬ C159_statement Nat := by
  intro hc
  cases h1 : brunT 0 St.empty (ops.map (·, none)) with
  | ok r =>
    obtain ⟨outs, s⟩ := r
    rw [h1] at h
    cases h2 : bstepT 0 s op (some f) with
    | ok r =>
      obtain ⟨o, s'⟩ := r
      cases o with
      | none =>
        simp only [h2, decide_eq_true_eq] at h
        exact h ((hc 0 _ outs s s' op f h1 h2).2.1 i)
      | some o => simp only [h2] at h; cases h
    | exc e => simp only [h2] at h; cases h
    | ub => simp only [h2] at h; cases h
  | exc e => rw [h1] at h; cases h
  | ub => rw [h1] at h; cases h

/-- The contents of the tree 0 change: `ops` are safe, and the values are those of the specification. -/
theorem c159_contents (ops : List (BOp Nat)) (op : BOp Nat) (f : Fault) (hs : ∀ op ∈ ops.map (·, (none : Option Fault)), NodeSafe op.1) (ho : NodeSafe op)
    (hf : BAlwaysT 0 BFaithful (fun s op _ => BFaithful s op) St.empty (ops.map (·, none))) (hop : ∀ outs s, brunT 0 St.empty (ops.map (·, none)) = .ok (outs, s) → BFaithful s op)
    (h : (match bcutSpec 0 (brunTSpec 0 (fun _ => .nil) (ops.map (·, none))).2 op f with
      | some S => decide (S 0 ≠ (brunTSpec 0 (fun _ => .nil) (ops.map (·, none))).2 0)
      | none => false) = true) : ¬ C159_statement Nat := by
  intro hc
  obtain ⟨outs, s, T, e, hT, h1, -⟩ := brunT_ok 0 _ St.empty _ inv_empty hs
  have h1 : brunTSpec 0 (fun _ => .nil) (ops.map (·, none)) = (outs, fun k => erase (T k)) := h1 hf
  rw [h1] at h
  rcases bcut_good 0 hT op f ho with ⟨s', T', hok⟩ | ⟨-, h3⟩
  · rw [hok.spec (hop outs s e)] at h
    simp only [decide_eq_true_eq] at h
    have h2 := (hc 0 _ outs s s' op f e (by simp only [bstepT, hok.run, Res.bind_ok])).1 0 (erase (T 0)) (by rw [hT.root]; exact looks_rep (hT.rep 0))
    rw [hok.inv.root] at h2
    exact h (looks_unique (looks_rep (hok.inv.rep 0)) h2)
  · rw [h3 (hop outs s e)] at h; cases h

/-- C159 fails: `add_root` has deleted the tree when the new root cannot be made. -/
theorem C159_counterexample : ¬ C159_statement Nat := c159_nodes [.addRoot 0 1] (.addRoot 0 2) ⟨0, false⟩ 0 (by decide +kernel)

/-- C159 fails: the copy constructor of a tree leaks its root, when the copy of the value throws. -/
theorem C159_counterexample_constructor : ¬ C159_statement Nat := c159_nodes [.addRoot 0 1] (.copy 1 0) ⟨1, true⟩ 1 (by decide +kernel)

/-- C159 fails: an assignment of nodes deletes the children of the target first. -/
theorem C159_counterexample_assign_children : ¬ C159_statement Nat :=
  c159_nodes [.addRoot 0 1, .addLeft 0 [] 2, .addRoot 1 3] (.assign 0 [] 1 []) ⟨0, false⟩ 1 (by decide +kernel)

/-- C159 fails: an assignment of nodes that throws leaves a part of the children behind. -/
theorem C159_counterexample_assign : ¬ C159_statement Nat :=
  c159_contents [.addRoot 0 1, .addRoot 1 2, .addLeft 1 [] 3, .addRight 1 [] 4] (.assign 0 [] 1 []) ⟨2, false⟩
    (by simp [NodeSafe]) ⟨fun h => by simp [Below] at h, fun h => by simp [Below] at h⟩
    ⟨trivial, fun _ _ _ => ⟨trivial, fun _ _ _ => ⟨trivial, fun _ _ _ => ⟨trivial, fun _ _ _ => trivial⟩⟩⟩⟩ (fun _ _ _ => fun h => by cases h) (by decide +kernel)

/-- C159 fails: a move that throws when the value is moved has moved the children. -/
theorem C159_counterexample_move : ¬ C159_statement Nat :=
  c159_contents [.addRoot 0 1, .addRoot 1 2, .addLeft 1 [] 3] (.moveAssign 0 [] 1 []) ⟨0, false⟩
    (by simp [NodeSafe]) (fun h => by simp [Below] at h)
    ⟨trivial, fun _ _ _ => ⟨trivial, fun _ _ _ => ⟨trivial, fun _ _ _ => trivial⟩⟩⟩ (fun _ _ _ => fun h => by cases h) (by decide +kernel)

/-- C159 fails: an assignment of trees leaves default values. -/
theorem C159_counterexample_tree : ¬ C159_statement Nat := by
  refine c159_contents [.addRoot 1 2, .addLeft 1 [] 3] (.copy 0 1) ⟨2, false⟩
    (by simp [NodeSafe]) trivial
    ⟨trivial, fun _ _ _ => ⟨trivial, fun _ _ _ => trivial⟩⟩ (fun outs s e => ⟨by decide, fun h => ?_⟩) (by decide +kernel)
  have hd : (match brunT 0 St.empty (([.addRoot 1 2, .addLeft 1 [] 3] : List (BOp Nat)).map (·, none)) with
    | .ok (_, s) => decide (s.roots 0 = none)
    | _ => false) = true := by decide +kernel
  rw [e] at hd
  simpa using hd

/-- C159 fails: `swap` loses a value when its last copy throws. -/
theorem C159_counterexample_swap : ¬ C159_statement Nat :=
  c159_contents [.addRoot 0 1, .addLeft 0 [] 2] (.swap 0 [] 0) ⟨2, false⟩
    (by simp [NodeSafe]) trivial
    ⟨trivial, fun _ _ _ => ⟨trivial, fun _ _ _ => trivial⟩⟩ (fun _ _ _ => trivial) (by decide +kernel)

/-- C159: an exception within the copy of a child leaves a child whose `parent()` throws. -/
theorem C159_null_parent (dflt x y z : α) :
    ∃ s i, brunT dflt St.empty [(.addRoot 0 x, none), (.addRoot 1 y, none), (.addLeft 1 [] z, none), (.assign 0 [] 1 [], some ⟨1, false⟩)] =
        .ok ([some .unit, some .unit, some (.bool true), none], s) ∧
      follow s (s.roots 0) [false] = some i ∧ s.mem i = some ⟨none, dflt, 1, none, none⟩ ∧ parentOf s i = .exc .invalidNode :=
  ⟨_, 3, rfl, rfl, rfl, rfl⟩

/-- An assignment with every possible exception; the target had two children. -/
example : ((List.range 6).map fun n => (brunTSpec 0 (fun _ => .nil) [(.addRoot 0 1, none), (.addLeft 0 [] 2, none), (.addRight 0 [] 3, none),
    (.addRoot 1 4, none), (.addLeft 1 [] 5, none), (.addRight 1 [] 6, none), (.assign 0 [] 1 [], some ⟨n, false⟩)]).2 0) =
    ([.node 1 .nil .nil, .node 1 (.node 0 .nil .nil) .nil, .node 1 (.node 5 .nil .nil) .nil, .node 1 (.node 5 .nil .nil) (.node 0 .nil .nil),
      .node 1 (.node 5 .nil .nil) (.node 6 .nil .nil), .node 4 (.node 5 .nil .nil) (.node 6 .nil .nil)] : List (BT Nat)) := by decide +kernel
/-- The memory after an assignment and a move that throw; the program goes on. -/
example : (match brunT 0 St.empty [(.addRoot 0 1, none), (.addLeft 0 [] 2, none), (.addRoot 1 4, none), (.addLeft 1 [] 5, none), (.addRight 1 [] 6, none),
    (.assign 0 [] 1 [], some ⟨3, false⟩), (.addLeft 0 [] 7, none), (.addLeft 0 [true] 8, some ⟨0, false⟩), (.addLeft 0 [true] 8, none),
    (.moveAssign 1 [] 0 [true], some ⟨0, false⟩), (.setValue 1 [] 9, some ⟨1, false⟩)] with
    | .ok (outs, s) => some (outs, (List.range s.next).map s.mem)
    | _ => none) = some ([some .unit, some (.bool true), some .unit, some (.bool true), some (.bool true), none, some (.bool false), none, some (.bool true), none, some .unit],
      [some ⟨none, 1, 1, some 5, some 6⟩, none, some ⟨none, 9, 1, some 7, none⟩, none, none, some ⟨some 0, 5, 1, none, none⟩, some ⟨none, 0, 1, none, none⟩,
       some ⟨some 2, 8, 1, none, none⟩]) := by decide +kernel
/-- The copy constructor and the assignment of trees throw. -/
example : (match brunT 0 St.empty [(.addRoot 0 1, none), (.copy 1 0, some ⟨1, true⟩), (.copy 1 0, some ⟨1, false⟩), (.addRoot 1 3, some ⟨0, false⟩), (.copy 1 0, some ⟨2, true⟩)] with
    | .ok (outs, s) => some (outs, (List.range s.next).map s.mem, s.roots 1)
    | _ => none) = some ([some .unit, none, none, none, some .unit],
      [some ⟨none, 1, 1, none, none⟩, some ⟨none, 0, 1, none, none⟩, none, some ⟨none, 1, 1, none, none⟩], some 3) := by decide +kernel

end Verif.Mem
