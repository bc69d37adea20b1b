import Verif.NMem.Bad

/-! Properties C129–C133: programs over n-ary trees. -/

namespace Verif.NMem
open Nary (Slots Node)
open Spec
variable {α : Type}

/-! ### Histories -/

theorem inv_empty : Inv (St.empty : St α) (fun _ => none) .nil :=
  ⟨fun _ => trivial, fun _ => rfl, fun _ => List.nodup_nil, fun _ _ _ h => (by cases h), fun _ _ => rfl, trivial, List.nodup_nil, fun _ _ h => (by cases h)⟩

/-- A program of safe statements runs to its end. -/
theorem nrun_ok (max : Nat) (dflt : α) : ∀ (ops : List (NOp α)) (s : St α) (T : Var → AT α), Inv s T .nil → Always max dflt (Safe max) s ops →
    ∃ outs s' T', nrun max dflt s ops = .ok (outs, s') ∧ Inv s' T' .nil ∧
      (Always max dflt Faithful s ops → nrunSpec max (fun v => valsT (T v)) ops = (outs, fun v => valsT (T' v))) ∧
      (Always max dflt Tidy s ops → NoLeak s T .nil → NoLeak s' T' .nil) ∧
      (Always max dflt Local s ops → Par T .nil → Par T' .nil) ∧
      (∀ i, Lost s T .nil i → Lost s' T' .nil i) ∧
      (¬ Always max dflt Tidy s ops → ∃ i, Lost s' T' .nil i) := by
  intro ops
  induction ops with
  | nil => intro s T h _; exact ⟨[], s, T, rfl, h, fun _ => rfl, fun _ => id, fun _ => id, fun _ => id, fun hn => absurd trivial hn⟩
  | cons op ops ih =>
    intro s T h hs
    obtain ⟨o, s1, T1, hok⟩ := nstep_ok (dflt := dflt) h hs.1
    obtain ⟨outs, s2, T2, e, i2, h1, h2, h3, h4, h5⟩ := ih s1 T1 hok.inv (hs.2 o s1 hok.run)
    refine ⟨o :: outs, s2, T2, by simp only [nrun, hok.run, Res.bind_ok, e], i2, fun ha => ?_, fun ha hn => h2 (ha.2 o s1 hok.run) (hok.leak ha.1 hn),
      fun ha hp => h3 (ha.2 o s1 hok.run) (hok.par ha.1 hp), fun i hi => h4 i (hok.lost i hi), fun hn => ?_⟩
    · have := hok.spec ha.1
      simp only [nrunSpec, this, h1 (ha.2 o s1 hok.run)]
    · by_cases ht : Tidy s op
      · refine h5 fun ha => hn ⟨ht, fun o' s' hr => ?_⟩
        rw [hok.run] at hr
        cases hr
        exact ha
      · obtain ⟨i, hi⟩ := hok.new ht
        exact ⟨i, h4 i hi⟩

theorem nrun_append {max : Nat} {dflt : α} (pre : List (NOp α)) : ∀ (s : St α) (post : List (NOp α)) {outs : List (NOut α)} {s' : St α},
    nrun max dflt s pre = .ok (outs, s') → nrun max dflt s (pre ++ post) = (do
      let (os, s) ← nrun max dflt s' post
      .ok (outs ++ os, s)) := by
  induction pre with
  | nil =>
    intro s post outs s' h
    cases h
    simp only [List.nil_append]
    cases nrun max dflt s post <;> rfl
  | cons op pre ih =>
    intro s post outs s' h
    simp only [nrun, Res.bind_eq_ok, Prod.exists] at h
    obtain ⟨o, s1, h1, os, s2, h2, h3⟩ := h
    cases h3
    simp only [List.cons_append, nrun, h1, Res.bind_ok, ih s1 post h2]
    cases nrun max dflt s' post <;> rfl

theorem Inv.inVar {s : St α} {T : Var → AT α} (h : Inv s T .nil) {v : Var} {i : Nat} (hi : InVar s v i) : i ∈ idsT (T v) := by
  obtain ⟨path, hp⟩ := hi
  rw [h.root, follow_rep _ (h.rep v)] at hp
  obtain ⟨⟨b, k⟩, hs, hb⟩ := Option.map_eq_some_iff.1 hp
  exact ids_sub hs (by rw [← hb]; simp [idsT])

/-- Every node of a tree is at the end of a path. -/
theorem path_ids : (∀ (k : AS α) (i : Nat), i ∈ ids k → ∃ p path n, sub (slot k p) path = some n ∧ n.1.id = i) := by
  intro k
  induction k with
  | nil => intro i h; cases h
  | null r ih =>
    intro i h
    obtain ⟨p, path, n, h1, h2⟩ := ih i h
    exact ⟨p + 1, path, n, by rw [← h1]; rfl, h2⟩
  | node b k r ih1 ih2 =>
    intro i h
    rcases List.mem_append.1 (show i ∈ (b.id :: ids k) ++ ids r from h) with h | h
    · rcases List.mem_cons.1 h with rfl | h
      · exact ⟨0, [], (b, k), rfl, rfl⟩
      · obtain ⟨p, path, n, h1, h2⟩ := ih1 i h
        exact ⟨0, p :: path, n, by rw [← h1]; rfl, h2⟩
    · obtain ⟨p, path, n, h1, h2⟩ := ih2 i h
      exact ⟨p + 1, path, n, by rw [← h1]; rfl, h2⟩

theorem Inv.inVar_iff {s : St α} {T : Var → AT α} (h : Inv s T .nil) {v : Var} {i : Nat} : InVar s v i ↔ i ∈ idsT (T v) := by
  refine ⟨h.inVar, fun hi => ?_⟩
  have go : ∃ path n, sub (T v) path = some n ∧ n.1.id = i := by
    cases ht : T v with
    | none => rw [ht] at hi; cases hi
    | some n =>
      obtain ⟨b, k⟩ := n
      rw [ht] at hi
      rcases List.mem_cons.1 hi with rfl | hi
      · exact ⟨[], (b, k), rfl, rfl⟩
      · obtain ⟨p, path, n, h1, h2⟩ := path_ids k i hi
        exact ⟨p :: path, n, h1, h2⟩
  obtain ⟨path, n, h1, h2⟩ := go
  refine ⟨path, ?_⟩
  rw [h.root, follow_rep _ (h.rep v), h1]
  exact congrArg some h2

theorem looks_rep {s : St α} : ∀ {k : AS α}, Rep s.mem k → Looks s (ptrs k) (vals k) := by
  intro k
  induction k with
  | nil => intro _; exact .nil
  | null r ih => intro h; exact .null (ih h)
  | node b k r ih1 ih2 => intro h; exact .node h.1 (ih1 h.2.1) (ih2 h.2.2)

theorem Inv.holds {s : St α} {T : Var → AT α} (h : Inv s T .nil) (v : Var) : Holds s v (valsT (T v)) := by
  have := looks_rep (s := s) (k := ofList [T v]) (rep_ofList.2 fun t ht => by simp at ht; subst ht; exact h.rep v)
  rw [ptrs_ofList, vals_ofList] at this
  simpa [Holds, h.root v] using this

theorem looks_unique {s : St α} {ps : List Ptr} {k k' : Slots α} (h : Looks s ps k) : Looks s ps k' → k = k' := by
  induction h generalizing k' with
  | nil => intro h'; cases h'; rfl
  | null _ ih => intro h'; cases h' with | null h' => rw [ih h']
  | node hc _ _ ih1 ih2 =>
    intro h'
    cases h' with
    | node hc' h1 h2 =>
      rw [hc] at hc'
      cases hc'
      rw [ih1 h1, ih2 h2]

/-! ### C129 memory safety -/

/-- The full claim of C129: every program over n-ary trees, their nodes and owning pointers runs without UB and ends. -/
def C129_statement (α : Type) : Prop :=
  ∀ (max : Nat) (dflt : α) (ops : List (NOp α)), ∃ outs s, nrun max dflt St.empty ops = .ok (outs, s)

theorem c129_witness (max : Nat) (ops : List (NOp Nat)) (h : (nrun max 0 St.empty ops).isOk = false) : ¬ C129_statement Nat := by
  intro hc
  obtain ⟨outs, s, e⟩ := hc max 0 ops
  rw [e] at h
  cases h

/-- C129 fails: a copy of a tree of two nodes, and both trees are destroyed. -/
theorem C129_counterexample : ¬ C129_statement Nat :=
  c129_witness 4 [.addRoot 0 1, .addChild ⟨.tree 0, []⟩ 2, .copy 1 0, .reset (.tree 1), .reset (.tree 0)] (by decide +kernel)

/-- C129 fails: `a = b` for two children of one node, where `b` has a child; then the tree is destroyed. -/
theorem C129_counterexample_node : ¬ C129_statement Nat :=
  c129_witness 4 [.addRoot 0 1, .addChild ⟨.tree 0, []⟩ 2, .addChild ⟨.tree 0, []⟩ 3, .addChild ⟨.tree 0, [1]⟩ 4, .assign ⟨.tree 0, [0]⟩ ⟨.tree 0, [1]⟩,
    .reset (.tree 0)] (by decide +kernel)

/-- C129 fails: `replace_at` at the maximum writes outside the vector. -/
theorem C129_counterexample_replace : ¬ C129_statement Nat :=
  c129_witness 4 [.addRoot 0 1, .replaceAt ⟨.tree 0, []⟩ 4 2 0] (by decide +kernel)

/-- C129, the part that holds: a program that copies no nodes or trees with children, except to themselves or to nodes above,
and uses `replace_at` below the maximum only.  It ends without UB, every pointer leads to an allocated node, and no node is
reachable in two ways.  Missing: the other copies and uses of `replace_at`, which are UB sooner or later (see
`C129_assign_fatal`, `C129_copy_fatal` and `C129_replace_fatal`). -/
theorem C129_memory_safe_partial (max : Nat) (dflt : α) (ops : List (NOp α)) (hs : Always max dflt (Safe max) St.empty ops) :
    ∃ outs s, nrun max dflt St.empty ops = .ok (outs, s) ∧
      (∀ v i, InVar s v i → ∃ c, s.mem i = some c) ∧
      (∀ l m i, node s l = some i → node s m = some i → l = m) := by
  obtain ⟨outs, s, T, e, hT, -⟩ := nrun_ok max dflt ops St.empty _ inv_empty hs
  refine ⟨outs, s, e, fun v i hi => rep_live (hT.rep v) (hT.inVar hi), fun l m i hl hm => ?_⟩
  have hv : l.var = m.var := hT.disj _ _ i (hT.inVar ⟨_, hl⟩) (hT.inVar ⟨_, hm⟩)
  rw [hT.node] at hl hm
  obtain ⟨⟨b, k⟩, h1, h2⟩ := Option.map_eq_some_iff.1 hl
  obtain ⟨⟨b', k'⟩, h3, h4⟩ := Option.map_eq_some_iff.1 hm
  have := sub_unique _ _ (hT.nodup l.var) h1 (by rw [hv]; exact h3) (h2.trans h4.symm)
  obtain ⟨lv, lp⟩ := l
  obtain ⟨mv, mp⟩ := m
  dsimp only at hv this
  rw [hv, this]

theorem nrun_inv {max : Nat} {dflt : α} {ops : List (NOp α)} (hs : Always max dflt (Safe max) St.empty ops) {outs : List (NOut α)} {s : St α}
    (h : nrun max dflt St.empty ops = .ok (outs, s)) : ∃ T, Inv s T .nil := by
  obtain ⟨outs', s', T, e, hT, -⟩ := nrun_ok max dflt ops St.empty _ inv_empty hs
  rw [h] at e
  cases e
  exact ⟨T, hT⟩

theorem two_resets {max : Nat} {dflt : α} {s s1 : St α} {op : NOp α} {o : NOut α} (h : nstep max dflt s op = .ok (o, s1)) {v w : Var}
    (hb : (do let s ← reset s1 v; reset s w) = Res.ub) : nrun max dflt s [op, .reset v, .reset w] = .ub := by
  simp only [nrun, h, Res.bind_ok]
  have hstep : ∀ (s : St α) v, nstep max dflt s (.reset v) = (do let s ← reset s v; .ok (.unit, s)) := fun _ _ => rfl
  simp only [hstep]
  cases e1 : reset s1 v with
  | ok s2 =>
    rw [e1] at hb
    have hb : reset s2 w = .ub := hb
    simp only [Res.bind_ok, hb, Res.bind_ub]
  | exc e => exact absurd e1 (reset_noExc _ _ _)
  | ub => rfl

/-- C129: when a node with children is copied to a node that is not the same and not above, then the destruction of the two
variables, with nothing between, is UB. -/
theorem C129_assign_fatal (max : Nat) (dflt : α) (ops : List (NOp α)) (hs : Always max dflt (Safe max) St.empty ops) (outs : List (NOut α)) (s : St α)
    (h : nrun max dflt St.empty ops = .ok (outs, s)) (l m : Loc) (hl : node s l ≠ none) (hm : ¬ Safe max s (.assign l m)) :
    nrun max dflt St.empty (ops ++ [.assign l m, .reset m.var, .reset l.var]) = .ub := by
  obtain ⟨T, hT⟩ := nrun_inv hs h
  simp only [Safe, not_or] at hm
  obtain ⟨s1, e1, e2⟩ := assign_bad (max := max) (dflt := dflt) hT hl hm.1 hm.2
  rw [nrun_append ops _ _ h, two_resets e1 e2, Res.bind_ub]

/-- C129: when a tree whose root has children is copied to another tree, then the destruction of the two trees is UB. -/
theorem C129_copy_fatal (max : Nat) (dflt : α) (ops : List (NOp α)) (hs : Always max dflt (Safe max) St.empty ops) (outs : List (NOut α)) (s : St α)
    (h : nrun max dflt St.empty ops = .ok (outs, s)) (k j : Nat) (hm : ¬ Safe max s (.copy k j)) :
    nrun max dflt St.empty (ops ++ [.copy k j, .reset (.tree j), .reset (.tree k)]) = .ub := by
  obtain ⟨T, hT⟩ := nrun_inv hs h
  simp only [Safe, not_or] at hm
  obtain ⟨s1, e1, e2⟩ := copy_bad (max := max) (dflt := dflt) hT hm.1 hm.2
  rw [nrun_append ops _ _ h, two_resets e1 e2, Res.bind_ub]

theorem nrun_bound {max : Nat} {dflt : α} : ∀ (ops : List (NOp α)) (s : St α), Bound max s → ∀ outs s', nrun max dflt s ops = .ok (outs, s') → Bound max s' := by
  intro ops
  induction ops with
  | nil => intro s h outs s' e; cases e; exact h
  | cons op ops ih =>
    intro s h outs s' e
    simp only [nrun, Res.bind_eq_ok, Prod.exists] at e
    obtain ⟨o, s1, h1, os, s2, h2, h3⟩ := e
    cases h3
    exact ih s1 (bound_step h h1) os _ h2

/-- C129: `replace_at` at or beyond the maximum is UB at once, for every node. -/
theorem C129_replace_fatal (max : Nat) (dflt : α) (ops : List (NOp α)) (hs : Always max dflt (Safe max) St.empty ops) (outs : List (NOut α)) (s : St α)
    (h : nrun max dflt St.empty ops = .ok (outs, s)) (l : Loc) (hl : node s l ≠ none) (pos : Nat) (x : α) (u : Nat)
    (hm : ¬ Safe max s (.replaceAt l pos x u)) : nrun max dflt St.empty (ops ++ [.replaceAt l pos x u]) = .ub := by
  obtain ⟨T, hT⟩ := nrun_inv hs h
  have hm : max ≤ pos := Nat.le_of_not_lt hm
  have hb : Bound max s := nrun_bound ops St.empty (fun i c h => by cases h) outs s h
  rw [nrun_append ops _ _ h]
  simp only [nrun, replace_bad (dflt := dflt) hT hb hl hm x u, Res.bind_ub]

/-- The memory as a list, by address. -/
def ndump (r : Res (List (NOut Nat) × St Nat)) : Option (List (Option (Cell Nat))) :=
  match r with
  | .ok (_, s) => some ((List.range s.next).map s.mem)
  | _ => none

/-- A subtree is moved to another place, and its child is taken out. -/
example : ndump (nrun 3 0 St.empty [.addRoot 0 1, .insertAt ⟨.tree 0, []⟩ 2 5, .addChild ⟨.tree 0, [2]⟩ 6, .insertFirstNull ⟨.tree 0, []⟩ 7,
    .moveAssign ⟨.tree 0, [0]⟩ ⟨.tree 0, [2]⟩, .extractChild ⟨.tree 0, [0]⟩ 0 9]) =
    some [some ⟨none, 1, [some 3, none, some 1]⟩, some ⟨some 0, 5, []⟩, some ⟨none, 6, []⟩, some ⟨some 0, 5, [none]⟩] := by decide +kernel
/-- After the copy, both trees have the same child. -/
example : ndump (nrun 4 0 St.empty [.addRoot 0 1, .addChild ⟨.tree 0, []⟩ 2, .copy 1 0]) =
    some [some ⟨none, 1, [some 1]⟩, some ⟨some 0, 2, []⟩, some ⟨none, 1, [some 1]⟩] := by decide +kernel
example : (nrun 4 0 St.empty ([.addRoot 0 1, .addChild ⟨.tree 0, []⟩ 2, .addRoot 1 3] ++
    [.assign ⟨.tree 1, []⟩ ⟨.tree 0, []⟩, .reset (.tree 0), .reset (.tree 1)] : List (NOp Nat))).isOk = false := by decide +kernel
/-- The sharing can be repaired. -/
example : (nrun 4 0 St.empty [.addRoot 0 1, .addChild ⟨.tree 0, []⟩ 2, .addRoot 1 3, .addRoot 2 4, .assign ⟨.tree 1, []⟩ ⟨.tree 0, []⟩,
    .assign ⟨.tree 1, []⟩ ⟨.tree 2, []⟩, .reset (.tree 0), .reset (.tree 1)] : Res (List (NOut Nat) × St Nat)).isOk = true := by decide +kernel
/-- Missing nodes throw; the program goes on. -/
example : (match nrun 2 0 St.empty [.addChild ⟨.tree 0, []⟩ 2, .addRoot 0 1, .insertAt ⟨.tree 0, []⟩ 1 4, .get ⟨.tree 0, [0]⟩, .get ⟨.tree 0, [2]⟩, .get ⟨.tree 0, [1]⟩,
    .addChild ⟨.tree 0, []⟩ 8, .deleteChild ⟨.tree 0, []⟩ 0, .addChild ⟨.tree 0, []⟩ 8] with | .ok (outs, _) => outs | _ => []) =
    [.thrown .invalidNode, .unit, .bool true, .thrown .invalidNode, .thrown .outOfRange, .val 4, .bool false, .bool true, .bool true] := by decide +kernel

/-! ### C130 contents -/

/-- The full claim of C130: if a program ends, its results are those of the same program over immutable trees that are values,
and so is the content of every variable. -/
def C130_statement (α : Type) : Prop :=
  ∀ (max : Nat) (dflt : α) (ops : List (NOp α)) (outs : List (NOut α)) (s : St α), nrun max dflt St.empty ops = .ok (outs, s) →
    outs = (nrunSpec max (fun _ => none) ops).1 ∧ ∀ v, Holds s v ((nrunSpec max (fun _ => none) ops).2 v)

/-- A statement returns a result that it does not return if the trees are values. -/
theorem c130_witness (max : Nat) (ops : List (NOp Nat)) (h : (match nrun max 0 St.empty ops with
    | .ok (outs, _) => decide (outs ≠ (nrunSpec max (fun _ => none) ops).1)
    | _ => false) = true) : ¬ C130_statement Nat := by
  intro hc
  cases hx : nrun max 0 St.empty ops with
  | ok p =>
    obtain ⟨outs, s⟩ := p
    rw [hx] at h
    simp only [decide_eq_true_eq] at h
    exact h (hc max 0 ops outs s hx).1
  | exc e => rw [hx] at h; cases h
  | ub => rw [hx] at h; cases h

/-- C130 fails: a change of a copy of a tree changes the original. -/
theorem C130_counterexample : ¬ C130_statement Nat :=
  c130_witness 4 [.addRoot 0 1, .addChild ⟨.tree 0, []⟩ 2, .copy 1 0, .setValue ⟨.tree 1, [0]⟩ 9, .get ⟨.tree 0, [0]⟩] (by decide +kernel)

/-- C130 fails: `n = std::move(n)` loses the children of the node. -/
theorem C130_counterexample_self : ¬ C130_statement Nat :=
  c130_witness 4 [.addRoot 0 1, .addChild ⟨.tree 0, []⟩ 2, .moveAssign ⟨.tree 0, []⟩ ⟨.tree 0, []⟩, .childrenCount ⟨.tree 0, []⟩] (by decide +kernel)

/-- C130 fails: `t = t` for a tree replaces it by an empty node. -/
theorem C130_counterexample_tree : ¬ C130_statement Nat :=
  c130_witness 4 [.addRoot 0 1, .copy 0 0, .get ⟨.tree 0, []⟩] (by decide +kernel)

/-- C130 fails: `t = u` with an empty `u` leaves `t` as it is. -/
theorem C130_counterexample_empty : ¬ C130_statement Nat :=
  c130_witness 4 [.addRoot 0 1, .copy 0 1, .get ⟨.tree 0, []⟩] (by decide +kernel)

/-- C130, the part that holds: besides the condition of C129, no node is moved to itself, no tree is copied to itself, and
no empty tree is copied to a non-empty one.  Missing: these assignments (see the counterexamples) and those of C129. -/
theorem C130_contents_partial (max : Nat) (dflt : α) (ops : List (NOp α)) (hs : Always max dflt (Safe max) St.empty ops)
    (hf : Always max dflt Faithful St.empty ops) :
    ∃ outs s, nrun max dflt St.empty ops = .ok (outs, s) ∧ outs = (nrunSpec max (fun _ => none) ops).1 ∧
      ∀ v, Holds s v ((nrunSpec max (fun _ => none) ops).2 v) := by
  obtain ⟨outs, s, T, e, hT, h1, -⟩ := nrun_ok max dflt ops St.empty _ inv_empty hs
  have h1 : nrunSpec max (fun _ => none) ops = (outs, fun v => valsT (T v)) := h1 hf
  refine ⟨outs, s, e, by rw [h1], fun v => ?_⟩
  rw [h1]
  exact hT.holds v

/-- What a variable holds is determined. -/
theorem C130_unique (s : St α) (v : Var) (t u : Tree α) (h1 : Holds s v t) (h2 : Holds s v u) : t = u := by
  have := congrArg Slots.toList (looks_unique h1 h2)
  simpa [toList_ofList] using this

example : (nrunSpec 3 (fun _ => none) [.addRoot 0 1, .insertAt ⟨.tree 0, []⟩ 2 5, .addChild ⟨.tree 0, [2]⟩ 6, .insertFirstNull ⟨.tree 0, []⟩ 7,
    .moveAssign ⟨.tree 0, [0]⟩ ⟨.tree 0, [2]⟩, .extractChild ⟨.tree 0, [0]⟩ 0 9]).2 (.tree 0) =
    (some (1, .node 5 (.null .nil) (.null (.node 5 .nil .nil))) : Tree Nat) := by decide +kernel
example : Always 4 0 Faithful St.empty [.addRoot 0 1, .addRoot 1 2, .moveAssign ⟨.tree 0, []⟩ ⟨.tree 1, []⟩, .move 2 (1 : Nat), .addChild ⟨.tree 2, []⟩ (5 : Nat)] :=
  ⟨trivial, fun _ _ _ => ⟨trivial, fun _ _ _ => ⟨by simp [Faithful], fun _ _ _ => ⟨trivial, fun _ _ _ => ⟨trivial, fun _ _ _ => trivial⟩⟩⟩⟩⟩

/-! ### C131 parents -/

/-- The full claim of C131: `parent()` of a node that is found below another one is that one; roots and extracted nodes have
no parent. -/
def C131_statement (α : Type) : Prop :=
  ∀ (max : Nat) (dflt : α) (ops : List (NOp α)) (outs : List (NOut α)) (s : St α), nrun max dflt St.empty ops = .ok (outs, s) →
    (∀ v i, s.vars v = some i → parentOf s i = .exc .invalidNode) ∧
    ∀ v path p i, node s ⟨v, path ++ [p]⟩ = some i → ∃ j, node s ⟨v, path⟩ = some j ∧ parentOf s i = .ok j

/-- The root of tree 0 has a parent. -/
theorem c131_witness (max : Nat) (ops : List (NOp Nat)) (h : (match nrun max 0 St.empty ops with
    | .ok (_, s) => (match s.vars (.tree 0) with
      | some i => (parentOf s i).isOk
      | none => false)
    | _ => false) = true) : ¬ C131_statement Nat := by
  intro hc
  cases hx : nrun max 0 St.empty ops with
  | ok q =>
    obtain ⟨outs, s⟩ := q
    rw [hx] at h
    simp only at h
    cases hv : s.vars (.tree 0) with
    | none => rw [hv] at h; cases h
    | some i =>
      rw [hv] at h
      simp only [(hc max 0 _ outs s hx).1 _ i hv] at h
      cases h
  | exc x => rw [hx] at h; cases h
  | ub => rw [hx] at h; cases h

/-- C131 fails: `t.root() = u.root().child(0)` copies the parent too. -/
theorem C131_counterexample : ¬ C131_statement Nat :=
  c131_witness 4 [.addRoot 0 1, .addRoot 1 2, .addChild ⟨.tree 1, []⟩ 3, .assign ⟨.tree 0, []⟩ ⟨.tree 1, [0]⟩] (by decide +kernel)

/-- C131 fails: `t.root() = std::move(u.root().child(0))` as well. -/
theorem C131_counterexample_move : ¬ C131_statement Nat :=
  c131_witness 4 [.addRoot 0 1, .addRoot 1 2, .addChild ⟨.tree 1, []⟩ 3, .moveAssign ⟨.tree 0, []⟩ ⟨.tree 1, [0]⟩] (by decide +kernel)

/-- C131 fails: children that are moved with their node keep the node they came from as parent, which may be destroyed. -/
theorem C131_counterexample_dangling : ∃ (ops : List (NOp Nat)) (outs : List (NOut Nat)) (s : St Nat), nrun 4 0 St.empty ops = .ok (outs, s) ∧
    ∃ i j, node s ⟨.tree 0, [0]⟩ = some i ∧ parentOf s i = .ok j ∧ s.mem j = none ∧ (∀ k, InVar s (.tree 0) k → ∃ c, s.mem k = some c) := by
  let ops : List (NOp Nat) := [.addRoot 0 1, .addRoot 1 2, .addChild ⟨.tree 1, []⟩ 3, .moveAssign ⟨.tree 0, []⟩ ⟨.tree 1, []⟩, .reset (.tree 1)]
  have hs : Always 4 0 (Safe 4) St.empty ops :=
    ⟨trivial, fun _ _ _ => ⟨trivial, fun _ _ _ => ⟨trivial, fun _ _ _ => ⟨trivial, fun _ _ _ => ⟨trivial, fun _ _ _ => trivial⟩⟩⟩⟩⟩
  obtain ⟨outs, s, e, h1, -⟩ := C129_memory_safe_partial 4 0 ops hs
  have h : (match nrun 4 0 St.empty ops with
    | .ok (_, s) => decide (node s ⟨.tree 0, [0]⟩ = some 2) && decide (s.mem 2 = some ⟨some 1, 3, []⟩) && (s.mem 1).isNone
    | _ => false) = true := by decide +kernel
  rw [e] at h
  simp only [Bool.and_eq_true, decide_eq_true_eq, Option.isNone_iff_eq_none] at h
  obtain ⟨⟨h2, h3⟩, h4⟩ := h
  exact ⟨ops, outs, s, e, 2, 1, h2, by simp only [parentOf, cell_eq h3, Res.bind_ok], h4, fun k hk => h1 _ k hk⟩

/-- `parent()` is right when `_parent` is the owner everywhere. -/
theorem parents_right {s : St α} {T : Var → AT α} (hT : Inv s T .nil) (h3 : Par T .nil) :
    (∀ v i, s.vars v = some i → parentOf s i = .exc .invalidNode) ∧
      ∀ v path p i, node s ⟨v, path ++ [p]⟩ = some i → ∃ j, node s ⟨v, path⟩ = some j ∧ parentOf s i = .ok j := by
  have hpar : ∀ l i, node s l = some i → parentOf s i = match (if l.path = [] then none else node s ⟨l.var, l.path.dropLast⟩) with
      | none => .exc .invalidNode
      | some j => .ok j := fun l i hi => by
    rw [hT.node] at hi
    obtain ⟨⟨b, k⟩, hs, hb⟩ := Option.map_eq_some_iff.1 hi
    obtain ⟨hm, -⟩ := hT.at hs
    have hb : b.id = i := hb
    have := par_at _ (h3.1 l.var) hs
    rw [hb] at hm
    simp only [parentOf, cell_eq hm, Res.bind_ok, this, hT.node]
    cases (if l.path = [] then none else ptrT (sub (T l.var) l.path.dropLast)) <;> rfl
  refine ⟨fun v i hi => ?_, fun v path p i hi => ?_⟩
  · have := hpar ⟨v, []⟩ i (by simp only [node, hi, follow])
    simpa using this
  · have h1 := hpar ⟨v, path ++ [p]⟩ i hi
    simp only [List.append_eq_nil_iff, List.cons_ne_nil, and_false, if_false, List.dropLast_concat] at h1
    cases hn : node s ⟨v, path⟩ with
    | none =>
      simp only [node] at hn hi
      rw [follow_append, hn] at hi
      simp [follow] at hi
    | some j => rw [hn] at h1; exact ⟨j, rfl, h1⟩

/-- C131, the part that holds: nodes are assigned (copied or moved) only from childless siblings, or root from childless root.
Missing: the other assignments (see the counterexamples). -/
theorem C131_parent_partial (max : Nat) (dflt : α) (ops : List (NOp α)) (hs : Always max dflt (Safe max) St.empty ops)
    (hl : Always max dflt Local St.empty ops) :
    ∃ outs s, nrun max dflt St.empty ops = .ok (outs, s) ∧
      (∀ v i, s.vars v = some i → parentOf s i = .exc .invalidNode) ∧
      ∀ v path p i, node s ⟨v, path ++ [p]⟩ = some i → ∃ j, node s ⟨v, path⟩ = some j ∧ parentOf s i = .ok j := by
  obtain ⟨outs, s, T, e, hT, -, -, h3, -⟩ := nrun_ok max dflt ops St.empty _ inv_empty hs
  obtain ⟨h1, h2⟩ := parents_right hT (h3 hl ⟨fun _ => trivial, trivial⟩)
  exact ⟨outs, s, e, h1, h2⟩

example : (match nrun 4 0 St.empty [.addRoot 0 1, .addChild ⟨.tree 0, []⟩ 2, .addChild ⟨.tree 0, [0]⟩ 3, .addChild ⟨.tree 0, [0]⟩ 4,
    .moveAssign ⟨.tree 0, [0, 0]⟩ ⟨.tree 0, [0, 1]⟩, .extractChild ⟨.tree 0, []⟩ 0 5] with
    | .ok (_, s) => some (node s ⟨.uptr 5, [0]⟩, (List.range s.next).map fun i => (s.mem i).map (·.par))
    | _ => none) = some (some 2, [some none, some none, some (some 1), some (some 1)]) := by decide +kernel

/-! ### C132 leaks -/

/-- Every node that is allocated is reachable from a variable. -/
def NothingLost (s : St α) : Prop := ∀ i c, s.mem i = some c → ∃ v, InVar s v i

/-- The full claim of C132: every node that was allocated and not deleted is reachable from a variable. -/
def C132_statement (α : Type) : Prop :=
  ∀ (max : Nat) (dflt : α) (ops : List (NOp α)) (outs : List (NOut α)) (s : St α), nrun max dflt St.empty ops = .ok (outs, s) → NothingLost s

/-- C132, exactly when it fails, for the programs of C129: something is lost at the end if and only if some statement copied a
node to another one with children, or moved a node to one with children or to one below, or copied a non-empty tree to a
non-empty one, or moved a tree to a non-empty one. -/
theorem C132_exact_partial (max : Nat) (dflt : α) (ops : List (NOp α)) (hs : Always max dflt (Safe max) St.empty ops) :
    ∃ outs s, nrun max dflt St.empty ops = .ok (outs, s) ∧ (NothingLost s ↔ Always max dflt Tidy St.empty ops) ∧
      (Always max dflt Tidy St.empty ops → (∀ v, s.vars v = none) → ∀ i, s.mem i = none) := by
  obtain ⟨outs, s, T, e, hT, -, h2, -, -, h5⟩ := nrun_ok max dflt ops St.empty _ inv_empty hs
  have hyes : Always max dflt Tidy St.empty ops → NothingLost s := fun ht i c hi => by
    rcases h2 ht (fun i c h => by cases h) i c hi with ⟨v, hv⟩ | hv
    · exact ⟨v, hT.inVar_iff.2 hv⟩
    · cases hv
  refine ⟨outs, s, e, ⟨fun hn => ?_, hyes⟩, fun ht hv i => ?_⟩
  · by_contra hc
    obtain ⟨i, ⟨c, hi⟩, h1, -⟩ := h5 hc
    obtain ⟨v, hv⟩ := hn i c hi
    exact h1 v (hT.inVar hv)
  · cases hi : s.mem i with
    | none => rfl
    | some c =>
      obtain ⟨v, path, hp⟩ := hyes ht i c hi
      rw [hv] at hp
      cases path <;> cases hp

/-- C132: what is lost stays lost: no safe program finds it again or deletes it. -/
theorem C132_lost_for_ever (max : Nat) (dflt : α) (ops more : List (NOp α)) (hs : Always max dflt (Safe max) St.empty ops) (outs : List (NOut α)) (s : St α)
    (h : nrun max dflt St.empty ops = .ok (outs, s)) (hm : Always max dflt (Safe max) s more) (i : Nat) (c : Cell α) (hi : s.mem i = some c)
    (hl : ∀ v, ¬ InVar s v i) : ∃ outs' s', nrun max dflt s more = .ok (outs', s') ∧ (∃ c', s'.mem i = some c') ∧ ∀ v, ¬ InVar s' v i := by
  obtain ⟨T, hT⟩ := nrun_inv hs h
  obtain ⟨outs', s', T', e, hT', -, -, -, h4, -⟩ := nrun_ok max dflt more s T hT hm
  obtain ⟨h1, h2, -⟩ := h4 i ⟨⟨c, hi⟩, fun v hv => hl v (hT.inVar_iff.2 hv), by simp [ids]⟩
  exact ⟨outs', s', e, h1, fun v hv => h2 v (hT'.inVar hv)⟩

theorem c132_witness (ops : List (NOp Nat)) (hs : Always 4 0 (Safe 4) St.empty ops) (ht : ¬ Always 4 0 Tidy St.empty ops) : ¬ C132_statement Nat := by
  intro hc
  obtain ⟨outs, s, e, h1, -⟩ := C132_exact_partial 4 0 ops hs
  exact ht (h1.1 (hc 4 0 ops outs s e))

/-- C132 fails: `t = std::move(u)` with a non-empty `t` leaks the nodes of `t`. -/
theorem C132_counterexample : ¬ C132_statement Nat := by
  refine c132_witness [.addRoot 0 7, .addRoot 1 8, .move 0 1] ⟨trivial, fun _ _ _ => ⟨trivial, fun _ _ _ => ⟨trivial, fun _ _ _ => trivial⟩⟩⟩ fun h => ?_
  have h2 := (h.2 _ _ rfl).2 _ _ rfl
  exact absurd h2.1 (by simp only [Tidy]; decide)

/-- C132 fails: `n = std::move(m)` leaks the children of `n`. -/
theorem C132_counterexample_node : ¬ C132_statement Nat := by
  refine c132_witness [.addRoot 0 7, .addChild ⟨.tree 0, []⟩ 8, .addRoot 1 9, .moveAssign ⟨.tree 0, []⟩ ⟨.tree 1, []⟩]
    ⟨trivial, fun _ _ _ => ⟨trivial, fun _ _ _ => ⟨trivial, fun _ _ _ => ⟨trivial, fun _ _ _ => trivial⟩⟩⟩⟩ fun h => ?_
  have h2 := ((h.2 _ _ rfl).2 _ _ rfl).2 _ _ rfl
  rcases h2.1 with h3 | h3 | h3
  · exact absurd h3 (by decide)
  · exact absurd h3 (by decide)
  · exact absurd (h3.1 0 ⟨none, 7, [some 1]⟩ rfl rfl (some 1) (by simp)) (by simp)

example : ndump (nrun 4 0 St.empty [.addRoot 0 7, .addRoot 1 8, .move 0 1, .reset (.tree 0), .reset (.tree 1)]) = some [some ⟨none, 7, []⟩, none] := by decide +kernel
example : ndump (nrun 4 0 St.empty [.addRoot 0 7, .addChild ⟨.tree 0, []⟩ 8, .extractChild ⟨.tree 0, []⟩ 0 3, .replaceAt ⟨.tree 0, []⟩ 0 5 3, .move 2 0,
    .reset (.tree 2), .reset (.uptr 3)]) = some [none, none, none] := by decide +kernel
/-- `n.child(0) = std::move(n)` makes a node that is its own child. -/
example : ndump (nrun 4 0 St.empty [.addRoot 0 7, .addChild ⟨.tree 0, []⟩ 8, .moveAssign ⟨.tree 0, [0]⟩ ⟨.tree 0, []⟩]) =
    some [some ⟨none, 7, []⟩, some ⟨none, 7, [some 1]⟩] := by decide +kernel

/-! ### C133 the maximum -/

/-- C133: no node ever has more than `max_node_size` slots, whatever the program does (the condition of C129 is not needed). -/
theorem C133_max (max : Nat) (dflt : α) (ops : List (NOp α)) (outs : List (NOut α)) (s : St α) (h : nrun max dflt St.empty ops = .ok (outs, s))
    (i : Nat) (c : Cell α) (hi : s.mem i = some c) : c.kids.length ≤ max :=
  nrun_bound ops St.empty (fun i c h => by cases h) outs s h i c hi

/-- The bound is reached. -/
theorem C133_tight (max : Nat) (x y : α) (n : Nat) (hn : n ≤ max) :
    ∃ outs s c, nrun max x St.empty (.addRoot 0 x :: List.replicate n (.addChild ⟨.tree 0, []⟩ y)) = .ok (outs, s) ∧ s.mem 0 = some c ∧ c.kids.length = n := by
  have go : ∀ m (s : St α) c, s.vars (.tree 0) = some 0 → s.mem 0 = some c → 0 < s.next → c.kids.length + m ≤ max →
      ∃ outs s' c', nrun max x s (List.replicate m (.addChild ⟨.tree 0, []⟩ y)) = .ok (outs, s') ∧ s'.mem 0 = some c' ∧ c'.kids.length = c.kids.length + m := by
    intro m
    induction m with
    | zero => intro s c _ h _ _; exact ⟨[], s, c, rfl, h, rfl⟩
    | succ m ih =>
      intro s c h1 h2 h3 h4
      have h5 : (alloc s (some 0) y).mem 0 = some c := by rw [alloc_mem, if_neg (by omega), h2]
      have hr : nstep max x s (.addChild ⟨.tree 0, []⟩ y) = .ok (.bool true, (alloc s (some 0) y).set 0 { c with kids := c.kids ++ [some s.next] }) := by
        simp only [nstep, NMem.onNode, h1, resolve, addChild, cell_eq h2, Res.bind_ok, if_pos (show c.kids.length < max by omega), change_eq h5]
      obtain ⟨outs, s', c', e, h6, h7⟩ := ih ((alloc s (some 0) y).set 0 { c with kids := c.kids ++ [some s.next] }) { c with kids := c.kids ++ [some s.next] } h1 (set_self (alloc s (some 0) y) 0 _) (Nat.succ_pos _) (by simp; omega)
      exact ⟨.bool true :: outs, s', c', by simp only [List.replicate_succ, nrun, hr, Res.bind_ok, e], h6, by rw [h7]; simp; omega⟩
  have hr : nstep max x (St.empty : St α) (.addRoot 0 x) = .ok (.unit, (alloc (St.empty.setVar (.tree 0) none) none x).setVar (.tree 0) (some 0)) := rfl
  obtain ⟨outs, s, c, e, h1, h2⟩ := go n ((alloc (St.empty.setVar (.tree 0) none) none x).setVar (.tree 0) (some 0)) ⟨none, x, []⟩ rfl rfl (Nat.succ_pos _) (by simpa using hn)
  exact ⟨.unit :: outs, s, c, by simp only [nrun, hr, Res.bind_ok, e], h1, by rw [h2]; simp⟩

example : (match nrun 2 0 St.empty [.addRoot 0 1, .insertAt ⟨.tree 0, []⟩ 1 4, .insertAt ⟨.tree 0, []⟩ 2 5, .addChild ⟨.tree 0, []⟩ 6, .insertFirstNull ⟨.tree 0, []⟩ 7,
    .insertFirstNull ⟨.tree 0, []⟩ 8] with | .ok (outs, s) => some (outs, (s.mem 0).map (·.kids)) | _ => none) =
    some ([.unit, .bool true, .bool false, .bool false, .bool true, .bool false], some [some 2, some 1]) := by decide +kernel

end Verif.NMem
