import Verif.NMem.Throw

/-! Property C158: programs over n-ary trees in which allocations and copies of elements throw. -/

namespace Verif.NMem
open Nary (Slots Node)
open Spec
variable {α : Type}

structure StepTOk (max : Nat) (dflt : α) (s : St α) (T : Var → AT α) (op : NOp α) (p : Option NPt) (o : Option (NOut α)) (s' : St α) (T' : Var → AT α) :
    Prop where
  run : nstepT max dflt s op p = .ok (o, s')
  inv : Inv s' T' .nil
  spec : Either max dflt Faithful Any s op p → nspecT max dflt (fun v => valsT (T v)) op p = (o, fun v => valsT (T' v))
  leak : Either max dflt Tidy TidyCut s op p → NoLeak s T .nil → NoLeak s' T' .nil
  par : Either max dflt Local LocalCut s op p → Par T .nil → Par T' .nil
  lost : ∀ i, Lost s T .nil i → Lost s' T' .nil i
  new : ¬ Either max dflt Tidy TidyCut s op p → ∃ i, Lost s' T' .nil i

theorem nstepT_ok {max : Nat} {dflt : α} {s : St α} {T : Var → AT α} {op : NOp α} {p : Option NPt} (h : Inv s T .nil)
    (hs : Either max dflt (Safe max) Any s op p) : ∃ o s' T', StepTOk max dflt s T op p o s' T' := by
  cases p with
  | none =>
    obtain ⟨o, s', T', hok⟩ := nstep_ok (dflt := dflt) h hs
    refine ⟨some o, s', T', by simp only [nstepT, hok.run, Res.bind_ok], hok.inv, fun hf => ?_, hok.leak, hok.par, hok.lost, hok.new⟩
    simp only [nspecT, hok.spec hf]
  | some p =>
    rcases ncut_good (max := max) (dflt := dflt) h op p with ⟨s', T', hok⟩ | ⟨h1, h2⟩
    · refine ⟨none, s', T', by simp only [nstepT, hok.run, Res.bind_ok], hok.inv, fun _ => ?_, fun ht => ?_, fun ht => ?_, hok.lost, fun ht => ?_⟩
      · simp only [nspecT, hok.spec]
      · simp only [Either, hok.run] at ht
        exact hok.leak ht
      · simp only [Either, hok.run] at ht
        exact hok.par ht
      · simp only [Either, hok.run] at ht
        exact hok.new ht
    · simp only [Either, h1] at hs
      obtain ⟨o, s', T', hok⟩ := nstep_ok (dflt := dflt) h hs
      refine ⟨some o, s', T', by simp only [nstepT, h1, hok.run, Res.bind_ok], hok.inv, fun hf => ?_, fun ht => ?_, fun ht => ?_, hok.lost, fun ht => ?_⟩
      · simp only [Either, h1] at hf
        simp only [nspecT, h2, hok.spec hf]
      · simp only [Either, h1] at ht
        exact hok.leak ht
      · simp only [Either, h1] at ht
        exact hok.par ht
      · simp only [Either, h1] at ht
        exact hok.new ht

theorem nrunT_ok (max : Nat) (dflt : α) : ∀ (ops : List (NOp α × Option NPt)) (s : St α) (T : Var → AT α), Inv s T .nil →
    AlwaysT max dflt (Safe max) Any s ops →
    ∃ outs s' T', nrunT max dflt s ops = .ok (outs, s') ∧ Inv s' T' .nil ∧
      (AlwaysT max dflt Faithful Any s ops → nrunTSpec max dflt (fun v => valsT (T v)) ops = (outs, fun v => valsT (T' v))) ∧
      (AlwaysT max dflt Tidy TidyCut s ops → NoLeak s T .nil → NoLeak s' T' .nil) ∧
      (AlwaysT max dflt Local LocalCut s ops → Par T .nil → Par T' .nil) ∧
      (∀ i, Lost s T .nil i → Lost s' T' .nil i) ∧
      (¬ AlwaysT max dflt Tidy TidyCut s ops → ∃ i, Lost s' T' .nil i) := by
  intro ops
  induction ops with
  | nil => intro s T h _; exact ⟨[], s, T, rfl, h, fun _ => rfl, fun _ => id, fun _ => id, fun _ => id, fun hn => absurd trivial hn⟩
  | cons op ops ih =>
    obtain ⟨op, p⟩ := op
    intro s T h hs
    obtain ⟨o, s1, T1, hok⟩ := nstepT_ok (dflt := dflt) h hs.1
    obtain ⟨outs, s2, T2, e, i2, h1, h2, h3, h4, h5⟩ := ih s1 T1 hok.inv (hs.2 o s1 hok.run)
    refine ⟨o :: outs, s2, T2, by simp only [nrunT, hok.run, Res.bind_ok, e], i2, fun ha => ?_, fun ha hn => h2 (ha.2 o s1 hok.run) (hok.leak ha.1 hn),
      fun ha hp => h3 (ha.2 o s1 hok.run) (hok.par ha.1 hp), fun i hi => h4 i (hok.lost i hi), fun hn => ?_⟩
    · have := hok.spec ha.1
      simp only [nrunTSpec, this, h1 (ha.2 o s1 hok.run)]
    · by_cases ht : Either max dflt Tidy TidyCut s op p
      · refine h5 fun ha => hn ⟨ht, fun o' s' hr => ?_⟩
        rw [hok.run] at hr
        cases hr
        exact ha
      · obtain ⟨i, hi⟩ := hok.new ht
        exact ⟨i, h4 i hi⟩

/-! ### C158 -/

/-- The full claim of C158: a statement that throws leaves the contents of every variable, the parents and the allocated nodes as they were. -/
def C158_statement (α : Type) : Prop :=
  ∀ (max : Nat) (dflt : α) (ops : List (NOp α × Option NPt)) (outs : List (Option (NOut α))) (s s' : St α) (op : NOp α) (p : NPt),
    nrunT max dflt St.empty ops = .ok (outs, s) → nstepT max dflt s op (some p) = .ok (none, s') →
    (∀ v t, Holds s v t → Holds s' v t) ∧
    (∀ i, (s'.mem i).isSome = (s.mem i).isSome) ∧ ∀ i c c', s.mem i = some c → s'.mem i = some c' → c'.par = c.par

/-- C158: whatever throws, the program can go on: if the statements that do not throw are those of C129, the program runs to its end without UB, every
pointer leads to an allocated node, and no node is reachable in two ways.  Moreover the results are those of the same program over immutable values with
the same exceptions, if the statements that do not throw are those of C130, and the contents are those of `nrunTSpec`.  Missing: the copies of C129 and
C130. -/
theorem C158_basic_partial (max : Nat) (dflt : α) (ops : List (NOp α × Option NPt)) (hs : AlwaysT max dflt (Safe max) Any St.empty ops) :
    ∃ outs s, nrunT max dflt St.empty ops = .ok (outs, s) ∧
      (∀ v i, InVar s v i → ∃ c, s.mem i = some c) ∧
      (∀ l m i, node s l = some i → node s m = some i → l = m) ∧
      (AlwaysT max dflt Faithful Any St.empty ops →
        outs = (nrunTSpec max dflt (fun _ => none) ops).1 ∧ ∀ v, Holds s v ((nrunTSpec max dflt (fun _ => none) ops).2 v)) := by
  obtain ⟨outs, s, T, e, hT, h1, -⟩ := nrunT_ok max dflt ops St.empty _ inv_empty hs
  refine ⟨outs, s, e, fun v i hi => rep_live (hT.rep v) (hT.inVar hi), fun l m i hl hm => ?_, fun hf => ?_⟩
  · have hv : l.var = m.var := hT.disj _ _ i (hT.inVar ⟨_, hl⟩) (hT.inVar ⟨_, hm⟩)
    rw [hT.node] at hl hm
    obtain ⟨⟨b, k⟩, h1, h2⟩ := Option.map_eq_some_iff.1 hl
    obtain ⟨⟨b', k'⟩, h3, h4⟩ := Option.map_eq_some_iff.1 hm
    have := sub_unique _ _ (hT.nodup l.var) h1 (by rw [hv]; exact h3) (h2.trans h4.symm)
    obtain ⟨lv, lp⟩ := l
    obtain ⟨mv, mp⟩ := m
    dsimp only at hv this
    rw [hv, this]
  · have h1 : nrunTSpec max dflt (fun _ => none) ops = (outs, fun v => valsT (T v)) := h1 hf
    refine ⟨by rw [h1], fun v => ?_⟩
    rw [h1]
    exact hT.holds v

/-- The statements that change nothing at all when they throw at the point. -/
def Strong (s : St α) : NOp α → NPt → Prop
  | .addChild _ _, .new | .insertFirstNull _ _, .new | .insertAt _ _ _, .grow | .replaceAt _ _ _ _, .grow => True
  | .insertAt l pos _, .new => ∀ i c, node s l = some i → s.mem i = some c → pos < c.kids.length
  | .setValue _ _, _ | .swapValues _ _, .value | .copy _ _, .new => True
  | _, _ => False

theorem onCut_some {s s' : St α} {l : Loc} {f : Nat → Res (Option (St α))} (h : onCut s l f = .ok (some s')) :
    ∃ i, resolve s (s.vars l.var) l.path = .ok i ∧ f i = .ok (some s') := by
  unfold onCut at h
  cases hr : resolve s (s.vars l.var) l.path with
  | ok i => rw [hr] at h; exact ⟨i, rfl, h⟩
  | exc e => rw [hr] at h; cases h
  | ub => rw [hr] at h; cases h

theorem node_resolve {s : St α} : ∀ (path : List Nat) {p : Ptr} {i : Nat}, resolve s p path = .ok i → follow s p path = some i := by
  intro path
  induction path with
  | nil =>
    intro p i h
    cases p with
    | none => cases h
    | some j => simp only [resolve, Res.ok.injEq] at h; rw [← h]; rfl
  | cons q path ih =>
    intro p i h
    cases p with
    | none => cases h
    | some j =>
      simp only [resolve, Res.bind_eq_ok] at h
      obtain ⟨c, hc, h⟩ := h
      have hm : s.mem j = some c := by
        unfold cell at hc
        cases hj : s.mem j with
        | none => rw [hj] at hc; cases hc
        | some d => rw [hj] at hc; cases hc; rfl
      cases hq : c.kids[q]? with
      | none => rw [hq] at h; cases h
      | some r =>
        rw [hq] at h
        simp only [follow, hm, hq, Option.join]
        exact ih h

theorem cell_some {s : St α} {i : Nat} {c : Cell α} (h : cell s i = .ok c) : s.mem i = some c := by
  unfold cell at h
  cases hj : s.mem i with
  | none => rw [hj] at h; cases h
  | some d => rw [hj] at h; cases h; rfl

theorem nstepT_none {max : Nat} {dflt : α} {s s' : St α} {op : NOp α} {p : NPt} (h : nstepT max dflt s op (some p) = .ok (none, s')) :
    ncut max dflt s op p = .ok (some s') := by
  simp only [nstepT, Res.bind_eq_ok] at h
  obtain ⟨r, h1, h2⟩ := h
  cases r with
  | some t => cases h2; exact h1
  | none =>
    simp only [Res.bind_eq_ok, Prod.exists] at h2
    obtain ⟨o, t, -, h3⟩ := h2
    cases h3

theorem cutAdd_new {max : Nat} {s s' : St α} {i : Nat} {x : α} (h : cutAdd max s i x .new = .ok (some s')) : s' = s := by
  simp only [cutAdd, Res.bind_eq_ok] at h
  obtain ⟨c, -, h⟩ := h
  by_cases hl : c.kids.length < max
  · rw [if_pos hl] at h; cases h; rfl
  · rw [if_neg hl] at h; cases h

/-- C158, the part that holds: these statements have no effect when they throw, in any state of any program: `add_child` and `insert_at_first_null` when
the node cannot be made, `insert_at` within the slots, `insert_at` and `replace_at` when the vector cannot grow, `set_value`, `swap` when the first copy
throws, and the assignment of trees when the node cannot be made.  Missing: all other statements and points (see the counterexamples). -/
theorem C158_strong_partial (max : Nat) (dflt : α) (s s' : St α) (op : NOp α) (p : NPt) (hs : Strong s op p)
    (h : nstepT max dflt s op (some p) = .ok (none, s')) : s' = s := by
  have h := nstepT_none h
  cases op with
  | addChild l x =>
    cases p with
    | new =>
      obtain ⟨i, -, h⟩ := onCut_some h
      exact cutAdd_new h
    | _ => exact hs.elim
  | insertFirstNull l x =>
    cases p with
    | new =>
      obtain ⟨i, -, h⟩ := onCut_some h
      simp only [cutFirstNull, Res.bind_eq_ok] at h
      obtain ⟨c, -, h⟩ := h
      by_cases hl : c.kids.findIdx (·.isNone) < c.kids.length
      · rw [if_pos hl] at h; cases h; rfl
      · rw [if_neg hl] at h
        exact cutAdd_new h
    | _ => exact hs.elim
  | insertAt l pos x =>
    obtain ⟨i, hi, h⟩ := onCut_some h
    simp only [cutInsertAt, Res.bind_eq_ok] at h
    obtain ⟨c, hc, h⟩ := h
    by_cases hm : pos < max
    · rw [if_pos hm] at h
      by_cases hl : pos < c.kids.length
      · rw [if_pos hl] at h
        by_cases hn : c.kids[pos]? = some none ∧ p = .new
        · rw [if_pos hn] at h; cases h; rfl
        · rw [if_neg hn] at h; cases h
      · rw [if_neg hl] at h
        cases p with
        | grow => cases h; rfl
        | new => exact absurd (hs i c (node_resolve _ hi) (cell_some hc)) hl
        | _ => cases h
    · rw [if_neg hm] at h; cases h
  | replaceAt l pos x u =>
    cases p with
    | grow =>
      obtain ⟨i, hi, h⟩ := onCut_some h
      simp only [cutReplaceAt, Res.bind_eq_ok] at h
      obtain ⟨c, hc, h⟩ := h
      by_cases hm : pos < max
      · rw [if_pos hm] at h
        by_cases hl : pos < c.kids.length
        · rw [if_pos hl] at h; cases h
        · rw [if_neg hl] at h; cases h; rfl
      · rw [if_neg hm] at h; cases h
    | _ => exact hs.elim
  | setValue l x =>
    cases p with
    | value =>
      obtain ⟨i, -, h⟩ := onCut_some h
      cases h; rfl
    | _ => cases h
  | swapValues l m =>
    cases p with
    | value =>
      obtain ⟨i, -, h⟩ := onCut_some h
      obtain ⟨j, -, h⟩ := onCut_some h
      cases h; rfl
    | _ => exact hs.elim
  | copy k j =>
    cases p with
    | new =>
      simp only [ncut, cutCopy] at h
      cases hj : s.vars (.tree j) with
      | none => rw [hj] at h; cases h
      | some i => rw [hj] at h; cases h; rfl
    | _ => exact hs.elim
  | _ => exact hs.elim

/-- C158, what is lost: for the programs of C129 with any exceptions, something is lost at the end if and only if a statement lost it as in C132, or a
vector could not grow after the new node was made, or a copy of a tree threw after its root was made: always in a constructor, and otherwise if the
target had a root. -/
theorem C158_leak (max : Nat) (dflt : α) (ops : List (NOp α × Option NPt)) (hs : AlwaysT max dflt (Safe max) Any St.empty ops) :
    ∃ outs s, nrunT max dflt St.empty ops = .ok (outs, s) ∧ (NothingLost s ↔ AlwaysT max dflt Tidy TidyCut St.empty ops) ∧
      (AlwaysT max dflt Tidy TidyCut St.empty ops → (∀ v, s.vars v = none) → ∀ i, s.mem i = none) := by
  obtain ⟨outs, s, T, e, hT, -, h2, -, -, h5⟩ := nrunT_ok max dflt ops St.empty _ inv_empty hs
  have hyes : AlwaysT max dflt Tidy TidyCut St.empty ops → NothingLost s := fun ht i c hi => by
    rcases h2 ht (fun i c h => by cases h) i c hi with ⟨v, hv⟩ | hv
    · exact ⟨v, hT.inVar_iff.2 hv⟩
    · cases hv
  refine ⟨outs, s, e, ⟨fun hn => ?_, hyes⟩, fun ht hv i => ?_⟩
  · by_contra hc
    obtain ⟨i, ⟨c, hi⟩, h1, -⟩ := h5 hc
    obtain ⟨v, hv⟩ := hn i c hi
    exact h1 v (hT.inVar hv)
  · cases hi : s.mem i with
    | none => rfl
    | some c =>
      obtain ⟨v, path, hp⟩ := hyes ht i c hi
      rw [hv] at hp
      cases path <;> cases hp

/-- C158, parents: `parent()` is right as in C131, if the statements that do not throw are those of C131 and the nodes of an assignment that throws have
the same parent (or both none). -/
theorem C158_parent_partial (max : Nat) (dflt : α) (ops : List (NOp α × Option NPt)) (hs : AlwaysT max dflt (Safe max) Any St.empty ops)
    (hl : AlwaysT max dflt Local LocalCut St.empty ops) :
    ∃ outs s, nrunT max dflt St.empty ops = .ok (outs, s) ∧
      (∀ v i, s.vars v = some i → parentOf s i = .exc .invalidNode) ∧
      ∀ v path p i, node s ⟨v, path ++ [p]⟩ = some i → ∃ j, node s ⟨v, path⟩ = some j ∧ parentOf s i = .ok j := by
  obtain ⟨outs, s, T, e, hT, -, -, h3, -⟩ := nrunT_ok max dflt ops St.empty _ inv_empty hs
  obtain ⟨h1, h2⟩ := parents_right hT (h3 hl ⟨fun _ => trivial, trivial⟩)
  exact ⟨outs, s, e, h1, h2⟩

/-! The claim fails at every other point -/

/-- The memory after `ops`, and after `op` has thrown at `p`; with the roots of the trees 0 and 1. -/
def cutDump (max : Nat) (ops : List (NOp Nat)) (op : NOp Nat) (p : NPt) : Option (List (Option (Cell Nat)) × List (Option (Cell Nat)) × Ptr × Ptr) :=
  match nrunT max 0 St.empty (ops.map (·, none)) with
  | .ok (_, s) =>
    match nstepT max 0 s op (some p) with
    | .ok (none, s') => some ((List.range s'.next).map s.mem, (List.range s'.next).map s'.mem, s'.vars (.tree 0), s'.vars (.tree 1))
    | _ => none
  | _ => none

/-- Nodes appear or disappear. -/
theorem c158_nodes (max : Nat) (ops : List (NOp Nat)) (op : NOp Nat) (p : NPt)
    (h : (match cutDump max ops op p with | some (a, b, _) => decide (a.map (·.isSome) ≠ b.map (·.isSome)) | none => false) = true) :
    ¬ C158_statement Nat := by
  intro hc
  unfold cutDump at h
  cases h1 : nrunT max 0 St.empty (ops.map (·, none)) with
  | ok r =>
    obtain ⟨outs, s⟩ := r
    rw [h1] at h
    cases h2 : nstepT max 0 s op (some p) with
    | ok r =>
      obtain ⟨o, s'⟩ := r
      cases o with
      | none =>
        simp only [h2, decide_eq_true_eq] at h
        apply h
        have := (hc max 0 _ outs s s' op p h1 h2).2.1
        simp only [List.map_map]
        exact List.map_congr_left fun i _ => (this i).symm
      | some o => simp only [h2] at h; cases h
    | exc e => simp only [h2] at h; cases h
    | ub => simp only [h2] at h; cases h
  | exc e => rw [h1] at h; cases h
  | ub => rw [h1] at h; cases h

/-- The parent of a node changes. -/
theorem c158_parents (max : Nat) (ops : List (NOp Nat)) (op : NOp Nat) (p : NPt) (i : Nat)
    (h : (match nrunT max 0 St.empty (ops.map (·, none)) with
      | .ok (_, s) =>
        match nstepT max 0 s op (some p) with
        | .ok (none, s') => (match s.mem i, s'.mem i with | some c, some c' => decide (c'.par ≠ c.par) | _, _ => false)
        | _ => false
      | _ => false) = true) : ¬ C158_statement Nat := by
  intro hc
  cases h1 : nrunT max 0 St.empty (ops.map (·, none)) with
  | ok r =>
    obtain ⟨outs, s⟩ := r
    rw [h1] at h
    cases h2 : nstepT max 0 s op (some p) with
    | ok r =>
      obtain ⟨o, s'⟩ := r
      cases o with
      | none =>
        simp only [h2] at h
        cases h3 : s.mem i with
        | none => rw [h3] at h; cases h
        | some c =>
          cases h4 : s'.mem i with
          | none => rw [h3, h4] at h; cases h
          | some c' =>
            rw [h3, h4] at h
            simp only [decide_eq_true_eq] at h
            exact h ((hc max 0 _ outs s s' op p h1 h2).2.2 i c c' h3 h4)
      | some o => simp only [h2] at h; cases h
    | exc e => simp only [h2] at h; cases h
    | ub => simp only [h2] at h; cases h
  | exc e => rw [h1] at h; cases h
  | ub => rw [h1] at h; cases h

/-- The contents of the tree 0 change: `ops` are safe, and the values are those of the specification. -/
theorem c158_contents (max : Nat) (ops : List (NOp Nat)) (op : NOp Nat) (p : NPt)
    (hs : AlwaysT max 0 (Safe max) Any St.empty (ops.map (·, none)) ∧ AlwaysT max 0 Faithful Any St.empty (ops.map (·, none)))
    (h : (match ncutSpec max 0 (nrunTSpec max 0 (fun _ => none) (ops.map (·, none))).2 op p with
      | some S => decide (S (.tree 0) ≠ (nrunTSpec max 0 (fun _ => none) (ops.map (·, none))).2 (.tree 0))
      | none => false) = true) : ¬ C158_statement Nat := by
  intro hc
  obtain ⟨outs, s, T, e, hT, h1, -⟩ := nrunT_ok max 0 _ St.empty _ inv_empty hs.1
  have h1 : nrunTSpec max 0 (fun _ => none) (ops.map (·, none)) = (outs, fun v => valsT (T v)) := h1 hs.2
  rw [h1] at h
  rcases ncut_good (max := max) (dflt := 0) hT op p with ⟨s', T', hok⟩ | ⟨-, h3⟩
  · rw [hok.spec] at h
    simp only [decide_eq_true_eq] at h
    have h2 := (hc max 0 _ outs s s' op p e (by simp only [nstepT, hok.run, Res.bind_ok])).1 (.tree 0) _ (hT.holds _)
    exact h (C130_unique s' (.tree 0) _ _ (hok.inv.holds _) h2)
  · rw [h3] at h; cases h

/-- C158 fails: `add_child` leaks the new node when `push_back` throws. -/
theorem C158_counterexample : ¬ C158_statement Nat := c158_nodes 4 [.addRoot 0 1] (.addChild ⟨.tree 0, []⟩ 2) .grow (by decide +kernel)

/-- C158 fails: the same in `insert_at_first_null`. -/
theorem C158_counterexample_first_null : ¬ C158_statement Nat := c158_nodes 4 [.addRoot 0 1] (.insertFirstNull ⟨.tree 0, []⟩ 2) .grow (by decide +kernel)

/-- C158 fails: `add_root` has deleted the tree when the new root cannot be made. -/
theorem C158_counterexample_root : ¬ C158_statement Nat := c158_nodes 4 [.addRoot 0 1] (.addRoot 0 2) .new (by decide +kernel)

/-- C158 fails: `replace_at` deletes the child that it should return when the new one cannot be made. -/
theorem C158_counterexample_replace : ¬ C158_statement Nat :=
  c158_nodes 4 [.addRoot 0 1, .addChild ⟨.tree 0, []⟩ 2] (.replaceAt ⟨.tree 0, []⟩ 0 3 0) .new (by decide +kernel)

/-- C158 fails: the copy constructor of a tree leaks the new root, when the copy of the value throws. -/
theorem C158_counterexample_copy : ¬ C158_statement Nat := c158_nodes 4 [.addRoot 0 1] (.copy 1 0) .valueNew (by decide +kernel)

/-- C158 fails: and when the vector of children cannot be copied. -/
theorem C158_counterexample_copy_slots : ¬ C158_statement Nat := c158_nodes 4 [.addRoot 0 1] (.copy 1 0) .slotsNew (by decide +kernel)

/-- C158 fails: the assignment of nodes changes the parent first. -/
theorem C158_counterexample_assign_parent : ¬ C158_statement Nat :=
  c158_parents 4 [.addRoot 0 1, .addRoot 1 2, .addChild ⟨.tree 1, []⟩ 3] (.assign ⟨.tree 0, []⟩ ⟨.tree 1, [0]⟩) .value 0 (by decide +kernel)

/-- C158 fails: so does the move. -/
theorem C158_counterexample_move_parent : ¬ C158_statement Nat :=
  c158_parents 4 [.addRoot 0 1, .addRoot 1 2, .addChild ⟨.tree 1, []⟩ 3] (.moveAssign ⟨.tree 0, []⟩ ⟨.tree 1, [0]⟩) .value 0 (by decide +kernel)

/-- C158 fails: `insert_at` leaves null slots when the new node cannot be made. -/
theorem C158_counterexample_insert : ¬ C158_statement Nat :=
  c158_contents 4 [.addRoot 0 1] (.insertAt ⟨.tree 0, []⟩ 3 2) .new
    ⟨⟨trivial, fun _ _ _ => trivial⟩, ⟨trivial, fun _ _ _ => trivial⟩⟩ (by decide +kernel)

/-- C158 fails: `swap` loses a value when its last copy throws. -/
theorem C158_counterexample_swap : ¬ C158_statement Nat :=
  c158_contents 4 [.addRoot 1 1, .addRoot 0 2] (.swapValues ⟨.tree 1, []⟩ ⟨.tree 0, []⟩) .back
    ⟨⟨trivial, fun _ _ _ => ⟨trivial, fun _ _ _ => trivial⟩⟩, ⟨trivial, fun _ _ _ => ⟨trivial, fun _ _ _ => trivial⟩⟩⟩ (by decide +kernel)

/-- C158 fails: an assignment of nodes has changed the value when the vector of children cannot be copied. -/
theorem C158_counterexample_assign : ¬ C158_statement Nat :=
  c158_contents 4 [.addRoot 1 1, .addRoot 0 2] (.assign ⟨.tree 0, []⟩ ⟨.tree 1, []⟩) .slots
    ⟨⟨trivial, fun _ _ _ => ⟨trivial, fun _ _ _ => trivial⟩⟩, ⟨trivial, fun _ _ _ => ⟨trivial, fun _ _ _ => trivial⟩⟩⟩ (by decide +kernel)

/-- C158 fails: an assignment of trees leaves a single node with a default value when the copy of the value throws. -/
theorem C158_counterexample_tree : ¬ C158_statement Nat :=
  c158_contents 4 [.addRoot 1 1, .addRoot 0 2] (.copy 0 1) .value
    ⟨⟨trivial, fun _ _ _ => ⟨trivial, fun _ _ _ => trivial⟩⟩, ⟨trivial, fun _ _ _ => ⟨trivial, fun _ _ _ => trivial⟩⟩⟩ (by decide +kernel)

/-- C158: the consequence of the null slots: after an `insert_at` at the last position that threw, `add_child` is refused, though the node has no child. -/
theorem C158_full_without_children (max : Nat) (dflt x y z : α) :
    ∃ s, nrunT (max + 1) dflt St.empty [(.addRoot 0 x, none), (.insertAt ⟨.tree 0, []⟩ max y, some .new), (.childrenCount ⟨.tree 0, []⟩, none),
      (.addChild ⟨.tree 0, []⟩ z, none)] = .ok ([some .unit, none, some (.num 0), some (.bool false)], s) := by
  have he : ∀ (P : St α → NOp α → Prop) s, (P s (.insertAt ⟨.tree 0, []⟩ max y)) →
      Either (max + 1) dflt P Any s (.insertAt ⟨.tree 0, []⟩ max y) (some .new) := fun P s h => by
    show match ncut (max + 1) dflt s (.insertAt ⟨.tree 0, []⟩ max y) .new with
      | .ok (some _) => Any s (.insertAt ⟨.tree 0, []⟩ max y) .new
      | _ => P s (.insertAt ⟨.tree 0, []⟩ max y)
    split
    · trivial
    · exact h
  obtain ⟨outs, s, e, -, -, h⟩ := C158_basic_partial (max + 1) dflt [(.addRoot 0 x, none), (.insertAt ⟨.tree 0, []⟩ max y, some .new),
    (.childrenCount ⟨.tree 0, []⟩, none), (.addChild ⟨.tree 0, []⟩ z, none)]
    ⟨trivial, fun _ _ _ => ⟨he _ _ trivial, fun _ _ _ => ⟨trivial, fun _ _ _ => ⟨trivial, fun _ _ _ => trivial⟩⟩⟩⟩
  obtain ⟨h, -⟩ := h ⟨trivial, fun _ _ _ => ⟨he _ _ trivial, fun _ _ _ => ⟨trivial, fun _ _ _ => ⟨trivial, fun _ _ _ => trivial⟩⟩⟩⟩
  refine ⟨s, ?_⟩
  rw [e, h]
  have hset : (setSlot ([] : List (Option (Node α))) max none) = List.replicate (max + 1) none := by
    simp [setSlot]
  have h1 : nspecT (max + 1) dflt (setVar (fun _ => none) (.tree 0) (some (x, .nil))) (.insertAt ⟨.tree 0, []⟩ max y) (some .new) =
      (none, setVar (fun _ => none) (.tree 0) (some (x, ofList (List.replicate (max + 1) none)))) := by
    simp [nspecT, ncutSpec, sub, put, setVar_self, setVar_setVar, slot, Slots.toList, hset]
  have h0 : nspecT (max + 1) dflt (fun _ => none) (.addRoot 0 x) none = (some .unit, setVar (fun _ => none) (.tree 0) (some (x, .nil))) := rfl
  have hc : (List.replicate (max + 1) (none : Option (Node α))).countP (·.isSome) = 0 := by simp
  simp only [nrunTSpec, h0, h1]
  simp [nspecT, nspec, Spec.onNode, sub, put, setVar_self, toList_ofList, hc]

/-- A tree in which `insert_at`, `add_child`, `replace_at` and `add_root` throw. -/
example : (match nrunT 3 0 St.empty [(.addRoot 0 1, none), (.insertAt ⟨.tree 0, []⟩ 1 5, some .new), (.insertFirstNull ⟨.tree 0, []⟩ 6, none),
    (.addChild ⟨.tree 0, []⟩ 7, some .grow), (.addChild ⟨.tree 0, []⟩ 8, none), (.replaceAt ⟨.tree 0, []⟩ 0 9 0, some .new), (.addChild ⟨.tree 0, []⟩ 10, some .grow)] with
    | .ok (outs, s) => some (outs, (List.range s.next).map s.mem)
    | _ => none) = some ([some .unit, none, some (.bool true), none, some (.bool true), none, some (.bool false)],
      [some ⟨none, 1, [none, none, some 3]⟩, none, some ⟨some 0, 7, []⟩, some ⟨some 0, 8, []⟩]) := by decide +kernel
/-- Nothing happens. -/
example : (match nrunT 3 0 St.empty [(.addRoot 0 1, none), (.addChild ⟨.tree 0, []⟩ 5, some .new), (.insertAt ⟨.tree 0, []⟩ 2 6, some .grow),
    (.setValue ⟨.tree 0, []⟩ 7, some .value), (.copy 1 0, some .new)] with
    | .ok (outs, s) => some (outs, (List.range s.next).map s.mem)
    | _ => none) = some ([some .unit, none, none, none, none], [some ⟨none, 1, []⟩]) := by decide +kernel
/-- The copy constructor and the assignment throw. -/
example : (match nrunT 3 0 St.empty [(.addRoot 0 1, none), (.copy 1 0, some .slotsNew), (.get ⟨.tree 1, []⟩, none), (.addRoot 1 4, none), (.copy 1 0, some .slots),
    (.get ⟨.tree 1, []⟩, none), (.swapValues ⟨.tree 0, []⟩ ⟨.tree 1, []⟩, some .back)] with
    | .ok (outs, s) => some (outs, (List.range s.next).map s.mem)
    | _ => none) = some ([some .unit, none, some (.thrown .invalidNode), some .unit, none, some (.val 1), none],
      [some ⟨none, 1, []⟩, some ⟨none, 1, []⟩, some ⟨none, 4, []⟩, some ⟨none, 1, []⟩]) := by decide +kernel

end Verif.NMem
