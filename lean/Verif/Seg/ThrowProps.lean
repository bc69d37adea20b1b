import Verif.Seg.ThrowRun
import Verif.Seg.Props

/-! Property C160: segment trees whose transform throws. -/

namespace Verif.Seg
open Spec Verif.Heap TM
set_option linter.unusedSectionVars false
variable {T V U : Type}

/-! ### Specification -/

namespace Spec

/-- The update `f` applied at positions `s ≤ p < c` only. -/
def updateUpTo (f : Nat → V → V) (xs : List V) (s c : Nat) : List V :=
  xs.mapIdx fun p v => if s ≤ p ∧ p < c then f p v else v

/-- The answer `v` to a call over `[s, e]` is the join of the elements, if the range is one element or holds none of the
positions `qs` at which updates were interrupted. -/
def Answers (X : Transform T V U) (xs : List V) (qs : List Nat) (s e : Nat) (v : V) : Prop :=
  s = e ∨ (∀ q ∈ qs, ¬ (s ≤ q ∧ q ≤ e)) → v = joinAll X.join X.dflt (slice xs s e)

/-- One call on the elements `xs`, with `qs` the positions at which updates were interrupted: what the user may see, and the
elements and positions after it.  A query that throws changes nothing; an update that throws at `q` has been applied to the
elements before `q` and perhaps to the one at `q`; reading the element at `q` takes `q` off the list. -/
inductive CallSpec (X : Transform T V U) (act : U → Nat → Nat → V → V) (xs : List V) (qs : List Nat) :
    Op T U → Seen V → List V → List Nat → Prop
  | query {a b v} (hv : Answers X xs qs (lo xs.length a b) (hi xs.length a b) v) :
    CallSpec X act xs qs (.query a b) (.value v) xs
      (if lo xs.length a b = hi xs.length a b then qs.filter (· ≠ lo xs.length a b) else qs)
  | queryThrew {a b} : CallSpec X act xs qs (.query a b) .threw xs qs
  | update {a b u v xs'}
    (hx : xs' = if X.has u then update (fun p v => act u p p v) xs (lo xs.length a b) (hi xs.length a b) else xs)
    (hv : Answers X xs' qs (lo xs.length a b) (hi xs.length a b) v) :
    CallSpec X act xs qs (.update a b u) (.value v) xs' qs
  | noUpdateThrew {a b u} (hu : X.has u = false) : CallSpec X act xs qs (.update a b u) .threw xs qs
  | updateThrew {a b u q c} (hu : X.has u = true) (h1 : lo xs.length a b ≤ q) (h2 : q ≤ hi xs.length a b) (h3 : q ≤ c)
    (h4 : c ≤ q + 1) : CallSpec X act xs qs (.update a b u) .threw
      (updateUpTo (fun p v => act u p p v) xs (lo xs.length a b) c) (q :: qs)

/-- A history of calls. -/
inductive CallsSpec (X : Transform T V U) (act : U → Nat → Nat → V → V) :
    List V → List Nat → List (Op T U) → List (Seen V) → List V → List Nat → Prop
  | nil {xs qs} : CallsSpec X act xs qs [] [] xs qs
  | cons {xs qs op o xs1 qs1 ops os xs2 qs2} (h1 : CallSpec X act xs qs op o xs1 qs1)
    (h2 : CallsSpec X act xs1 qs1 ops os xs2 qs2) : CallsSpec X act xs qs (op :: ops) (o :: os) xs2 qs2

end Spec

/-! ### The invariant -/

/-- The nodes above none of the positions `qs`. -/
def Clear (qs : List Nat) (x y : Nat) : Prop := ∀ q ∈ qs, ¬ (x ≤ q ∧ q ≤ y)

theorem clear_hered (qs : List Nat) : Hered (Clear qs) := fun a b hab h =>
  ⟨fun q hq => by have := h q hq; omega, fun q hq => by have := h q hq; omega⟩

/-- The tree holds the elements `xs`; only nodes above the positions `qs` may hold another value than the join of theirs. -/
structure TGood (X : Transform T V U) (P : U → Prop) (act : U → Nat → Nat → V → V) (t : SegT V U) (xs : List V)
    (qs : List Nat) : Prop where
  built : t.built = true
  size : t.size = xs.length
  pos : 0 < xs.length
  bound : xs.length ≤ W
  cap : xs.length ≤ t.heap.length
  rep : RepG X P act (Clear qs) t.heap 0 0 (xs.length - 1) xs

variable {X : Transform T V U} {P : U → Prop} {act : U → Nat → Nat → V → V}

theorem tgood_of_trep {t : SegT V U} {xs : List V} (r : TRep X P act t xs) : TGood X P act t xs [] :=
  ⟨r.built, r.size, r.pos, r.bound, r.cap, repG_of_rep r.rep⟩

theorem trep_of_tgood {t : SegT V U} {xs : List V} (r : TGood X P act t xs []) : TRep X P act t xs :=
  ⟨r.built, r.size, r.pos, r.bound, r.cap, rep_of_repG r.rep fun x y _ _ _ q hq => by cases hq⟩

theorem TGood.lastPos {t : SegT V U} {xs : List V} {qs} (r : TGood X P act t xs qs) : lastPos t = xs.length - 1 := by
  have h1 := r.pos
  have h2 := r.bound
  have h3 : 0 < W := by decide
  unfold Seg.lastPos
  rw [r.size]
  have : xs.length + W - 1 = (xs.length - 1) + W := by omega
  rw [this, Nat.add_mod_right, Nat.mod_eq_of_lt (by omega)]

theorem finalG_id (X : Transform T V U) (P : U → Prop) (act : U → Nat → Nat → V → V) (stp : RNode V U → Bool) :
    FinalG X P act stp (finOf none) (fun _ v => v) :=
  ⟨fun n _ => ⟨rfl, rfl, rfl, rfl⟩,
    fun n h1 h2 h3 => ⟨rfl, rfl, rfl, h2, fun _ _ _ _ => rfl, fun vs _ h => by rw [mapFrom_id]; exact h⟩⟩

theorem finalG_apply (L : Lawful X P act) {u : U} (hu : P u) (hh : X.has u = true) :
    FinalG X P act (fun n => !X.has n.lazy || X.criteria n) (finOf (some fun n => X.apply n u)) (fun p v => act u p p v) := by
  refine ⟨fun n h => ?_, fun n h1 h2 h3 => ?_⟩
  · obtain ⟨a1, a2, a3, a4⟩ := L.apply_value n u hu hh
    exact ⟨a1, a2, a3, by show (X.apply n u).value = _; rw [a4, h]⟩
  · obtain ⟨a1, a2, a3, a4⟩ := L.apply_value n u hu hh
    obtain ⟨b1, b2⟩ := L.apply_lazy n u hu hh h2 h1 (by simpa using h3)
    refine ⟨a1, a2, a3, b1, b2, fun vs h4 h5 => ?_⟩
    have hne : vs ≠ [] := by intro e; simp [e] at h4; omega
    show (X.apply n u).value = _
    rw [a4, h5, ← pend_joinAll L hu hh vs _ hne]
    congr 1; omega

theorem updN_zero (g : Nat → V → V) (s c : Nat) (vs : List V) : updN g s c 0 vs = updateUpTo g vs s c := by
  unfold updN updateUpTo
  rw [mapFrom_eq_mapIdx]

theorem updateUpTo_eq (g : Nat → V → V) (s e : Nat) (vs : List V) : updateUpTo g vs s (e + 1) = update g vs s e := by
  unfold updateUpTo update
  congr 1
  funext p v
  by_cases c : s ≤ p ∧ p ≤ e
  · rw [if_pos c, if_pos ⟨c.1, by omega⟩]
  · rw [if_neg c, if_neg (by omega)]

@[simp] theorem updateUpTo_length (g : Nat → V → V) (s c : Nat) (vs : List V) : (updateUpTo g vs s c).length = vs.length := by
  simp [updateUpTo]

theorem slice_one {xs : List V} {q : Nat} {v : V} (h : some v = xs[q]?) : slice xs q q = [v] := by
  unfold slice
  obtain ⟨hq, e⟩ := List.getElem?_eq_some_iff.1 h.symm
  rw [show q + 1 - q = 1 by omega, List.drop_eq_getElem_cons hq, e]
  rfl

/-- The walk of a query. -/
theorem queryWalk (L : Lawful X P act) (KV : KeepVal X P) {t : SegT V U} {xs : List V} {qs : List Nat} {stp : RNode V U → Bool}
    (r : TGood X P act t xs qs) {s e k : Nat} (h2 : s ≤ e) (h3 : e ≤ xs.length - 1) :
    Post (walkT X stp none t.heap.length s e 0) k t.heap fun q h' => h'.length = t.heap.length ∧
      match q with
      | none => RepG X P act (Clear qs) h' 0 0 (xs.length - 1) xs
      | some (_, v) => Answers X xs qs s e v ∧
        RepG X P act (Clear (if s = e then qs.filter (· ≠ s) else qs)) h' 0 0 (xs.length - 1) xs := by
  have h1 := r.pos
  have hc := r.cap
  obtain ⟨q, h', e1, w1, -, w3⟩ := walkT_spec L (clear_hered qs) (finalG_id X P act stp) (kp := True)
    (fun _ => ⟨fun _ _ => rfl, KV⟩) (fun _ _ _ => rfl) t.heap.length (k := k) r.rep (Nat.zero_le s) h2 h3 (by omega)
  refine ⟨q, h', e1, w1, ?_⟩
  cases q with
  | none =>
    obtain ⟨q, c, -, -, -, -, w⟩ := w3
    rw [updN_id (fun _ _ => rfl)] at w
    exact w.mono fun x y c => ⟨c, .inl trivial⟩
  | some p =>
    obtain ⟨k', v⟩ := p
    obtain ⟨w4, w5⟩ := w3
    rw [updN_id (fun _ _ => rfl)] at w4 w5
    refine ⟨fun hc => w5 (hc.imp_right fun hc x y z1 z2 z3 q hq => by have := hc q hq; omega), ?_⟩
    by_cases c : s = e
    · subst c
      rw [if_pos rfl]
      obtain ⟨q', h'', e2, w⟩ := walkT_point L (G := Clear qs) (G' := Clear (qs.filter (· ≠ s))) (stp := stp) (q := s)
        (fun a b hab hg => by
          by_cases hs : a ≤ s ∧ s ≤ b
          · rw [if_pos hs]; exact clear_hered _ a b hab hg
          · rw [if_neg hs]
            intro q hq
            by_cases hqs : q = s
            · rw [hqs]; exact hs
            · exact hg q (by simp [hq, hqs])) t.heap.length (k := k) r.rep (Nat.zero_le s) h3 (by omega)
      rw [e1] at e2
      injection e2 with e2
      obtain ⟨rfl, rfl⟩ := Prod.mk.inj e2
      exact w.2.2.2
    · rw [if_neg c]; exact w4

theorem queryT_good (L : Lawful X P act) (KV : KeepVal X P) {t : SegT V U} {xs : List V} {qs : List Nat}
    (r : TGood X P act t xs qs) (a b k : Nat) :
    ∃ o t' qs', queryT X k t a b = .ok (o, t') ∧ TGood X P act t' xs qs' ∧ (o = none → qs' = qs) ∧
      CallSpec (T := T) X act xs qs (.query a b) (match o with | some v => Seen.value v | none => Seen.threw) xs qs' := by
  have h1 := r.pos
  have hc := r.cap
  unfold queryT
  rw [if_neg (by simp [r.built]), r.lastPos]
  cases k with
  | zero => exact ⟨none, t, qs, rfl, r, fun _ => rfl, .queryThrew⟩
  | succ k =>
    simp only [Heap.head, rdAt_lt (show 0 < t.heap.length by omega), Res.bind_ok, rangeQueryT_eq_walkT]
    obtain ⟨q, h', e1, w1, w3⟩ := queryWalk L KV r (stp := fun n => !X.has n.lazy)
      (s := min (min a b) (xs.length - 1)) (e := min (max a b) (xs.length - 1)) (k := k) (by omega) (by omega)
    rw [e1]
    cases q with
    | none => exact ⟨none, _, qs, rfl, ⟨r.built, r.size, h1, r.bound, by show _ ≤ h'.length; omega, w3⟩, fun _ => rfl, .queryThrew⟩
    | some p =>
      obtain ⟨k', v⟩ := p
      exact ⟨some v, _, _, rfl, ⟨r.built, r.size, h1, r.bound, by show _ ≤ h'.length; omega, w3.2⟩,
        (fun c => by cases c), .query w3.1⟩

theorem updateT_good (L : Lawful X P act) (KV : KeepVal X P) {t : SegT V U} {xs : List V} {qs : List Nat}
    (r : TGood X P act t xs qs) (a b k : Nat) (u : U) (hu : P u) :
    ∃ o t' xs' qs', queryUpdateT X k t a b u = .ok (o, t') ∧ TGood X P act t' xs' qs' ∧
      CallSpec (T := T) X act xs qs (.update a b u) (match o with | some v => Seen.value v | none => Seen.threw) xs' qs' := by
  have h1 := r.pos
  have hc := r.cap
  unfold queryUpdateT
  rw [if_neg (by simp [r.built]), r.lastPos]
  cases k with
  | zero =>
    by_cases hh : X.has u = true
    · refine ⟨none, t, _, _, rfl, ?_, .updateThrew (q := lo xs.length a b) (c := lo xs.length a b) hh (Nat.le_refl _)
        (by unfold lo hi; omega) (Nat.le_refl _) (by omega)⟩
      rw [← updN_zero, updN_outside _ (.inr (.inl (Nat.le_refl _)))]
      exact ⟨r.built, r.size, h1, r.bound, hc, r.rep.mono fun x y c q hq => c q (List.mem_cons_of_mem _ hq)⟩
    · exact ⟨none, t, xs, qs, rfl, r, .noUpdateThrew (by simpa using hh)⟩
  | succ k =>
    simp only [Heap.head, rdAt_lt (show 0 < t.heap.length by omega), Res.bind_ok, rangeUpdateT_eq_walkT]
    have e0 : min (min a b) (xs.length - 1) = lo xs.length a b := rfl
    have e0' : min (max a b) (xs.length - 1) = hi xs.length a b := rfl
    rw [e0, e0']
    have l1 : lo xs.length a b ≤ hi xs.length a b := by unfold lo hi; omega
    have l2 : hi xs.length a b ≤ xs.length - 1 := by unfold hi; omega
    by_cases hh : X.has u = true
    · rw [if_pos hh]
      obtain ⟨q, h', e1, w1, -, w3⟩ := walkT_spec L (clear_hered qs) (finalG_apply L hu hh) (kp := False) (fun h => h.elim)
        (fun h => by cases h) t.heap.length (k := k) r.rep (Nat.zero_le (lo xs.length a b)) l1 l2 (by omega)
      rw [e1]
      cases q with
      | none =>
        obtain ⟨q, c, q1, q2, q3, q4, w⟩ := w3
        rw [updN_zero] at w
        refine ⟨none, _, _, q :: qs, rfl, ⟨r.built, by simp [r.size], by simpa using h1, by simpa using r.bound,
          by simp; omega, ?_⟩, .updateThrew hh q1 q2 q3 q4⟩
        simp only [updateUpTo_length]
        refine w.mono fun x y cl => ⟨fun q hq => cl q (List.mem_cons_of_mem _ hq), .inr (cl _ List.mem_cons_self)⟩
      | some p =>
        obtain ⟨k', v⟩ := p
        obtain ⟨w4, w5⟩ := w3
        rw [updN_zero, updateUpTo_eq] at w4 w5
        have len : (update (fun p v => act u p p v) xs (lo xs.length a b) (hi xs.length a b)).length = xs.length := by
          simp [update]
        refine ⟨some v, _, _, qs, rfl, ⟨r.built, by rw [len]; exact r.size, by rw [len]; exact h1, by rw [len]; exact r.bound,
          by rw [len]; show _ ≤ h'.length; omega, by rw [len]; exact w4⟩, .update (by rw [if_pos hh]) fun hc => ?_⟩
        exact w5 (hc.imp_right fun hc x y z1 z2 z3 q hq => by have := hc q hq; omega)
    · rw [if_neg hh]
      obtain ⟨q, h', e1, w1, -, w3⟩ := walkT_spec L (clear_hered qs)
        (finalG_id X P act (fun n => !X.has n.lazy || X.criteria n)) (kp := True)
        (fun _ => ⟨fun _ _ => rfl, KV⟩) (fun _ _ _ => rfl) t.heap.length (k := k) r.rep (Nat.zero_le (lo xs.length a b)) l1 l2
        (by omega)
      rw [e1]
      cases q with
      | none =>
        obtain ⟨q, c, -, -, -, -, w⟩ := w3
        rw [updN_id (fun _ _ => rfl)] at w
        exact ⟨none, _, xs, qs, rfl, ⟨r.built, r.size, h1, r.bound, by show _ ≤ h'.length; omega,
          w.mono fun x y c => ⟨c, .inl trivial⟩⟩, .noUpdateThrew (by simpa using hh)⟩
      | some p =>
        obtain ⟨k', v⟩ := p
        obtain ⟨w4, w5⟩ := w3
        rw [updN_id (fun _ _ => rfl)] at w4 w5
        refine ⟨some v, _, xs, qs, rfl, ⟨r.built, r.size, h1, r.bound, by show _ ≤ h'.length; omega, w4⟩,
          .update (by rw [if_neg hh]) fun hc => ?_⟩
        exact w5 (hc.imp_right fun hc x y z1 z2 z3 q hq => by have := hc q hq; omega)

/-- Queries, and updates satisfying `P`. -/
def CallOk (P : U → Prop) : Op T U → Prop
  | .query _ _ => True
  | .update _ _ u => P u
  | .rebuild _ _ => False

theorem runT_good (L : Lawful X P act) (KV : KeepVal X P) (need : Nat → Nat) (ops : List (Op T U × Nat)) :
    ∀ {t : SegT V U} {xs : List V} {qs : List Nat}, TGood X P act t xs qs → (∀ op ∈ ops, CallOk P op.1) →
    ∃ t' os xs' qs', runT X need t ops = .ok (t', os) ∧ TGood X P act t' xs' qs' ∧
      CallsSpec X act xs qs (ops.map (·.1)) os xs' qs' := by
  induction ops with
  | nil => intro t xs qs r _; exact ⟨t, [], xs, qs, rfl, r, .nil⟩
  | cons op ops ih =>
    intro t xs qs r hops
    have hrest : ∀ op ∈ ops, CallOk P op.1 := fun op h => hops op (List.mem_cons_of_mem _ h)
    have hop := hops op List.mem_cons_self
    obtain ⟨op, k⟩ := op
    cases op with
    | query a b =>
      obtain ⟨o, t1, qs1, e1, r1, -, c1⟩ := queryT_good L KV r a b k
      obtain ⟨t2, os, xs2, qs2, e2, r2, c2⟩ := ih r1 hrest
      exact ⟨t2, _ :: os, xs2, qs2, by simp only [runT, e1, e2, Res.bind_ok]; rfl, r2, .cons c1 c2⟩
    | update a b u =>
      obtain ⟨o, t1, xs1, qs1, e1, r1, c1⟩ := updateT_good L KV r a b k u hop
      obtain ⟨t2, os, xs2, qs2, e2, r2, c2⟩ := ih r1 hrest
      exact ⟨t2, _ :: os, xs2, qs2, by simp only [runT, e1, e2, Res.bind_ok]; rfl, r2, .cons c1 c2⟩
    | rebuild input number => exact hop.elim

/-- A query without exceptions on a tree with interrupted updates. -/
theorem query_good (L : Lawful X P act) (KV : KeepVal X P) {t : SegT V U} {xs : List V} {qs : List Nat}
    (r : TGood X P act t xs qs) (a b : Nat) :
    ∃ v t', query X t a b = .ok (v, t') ∧ Answers X xs qs (lo xs.length a b) (hi xs.length a b) v ∧
      TGood X P act t' xs (if lo xs.length a b = hi xs.length a b then qs.filter (· ≠ lo xs.length a b) else qs) := by
  have h1 := r.pos
  have hc := r.cap
  unfold query
  rw [if_neg (by simp [r.built]), r.lastPos]
  simp only [Heap.head, rdAt_lt (show 0 < t.heap.length by omega), Res.bind_ok, rangeQuery_eq_walk]
  have e0 : min (min a b) (xs.length - 1) = lo xs.length a b := rfl
  have e0' : min (max a b) (xs.length - 1) = hi xs.length a b := rfl
  rw [e0, e0']
  have l1 : lo xs.length a b ≤ hi xs.length a b := by unfold lo hi; omega
  have l2 : hi xs.length a b ≤ xs.length - 1 := by unfold hi; omega
  obtain ⟨v, h', k, e1, w1, w2, w3⟩ := walk_of_post fun k => queryWalk L KV r (stp := fun n => !X.has n.lazy) (k := k) l1 l2
  have e2 : walk X (fun n => !X.has n.lazy) (fun n => n) t.heap.length (lo xs.length a b) (hi xs.length a b) 0 t.heap =
      .ok (v, h') := e1
  rw [e2]
  exact ⟨v, _, rfl, w2, r.built, r.size, h1, r.bound, by show _ ≤ h'.length; omega, w3⟩

/-! ### C160 -/

/-- C160, what one would want and the tree does not provide: a call that throws leaves the tree representing some elements. -/
def C160_statement : Prop := ∀ (T V U : Type) (X : Transform T V U) (P : U → Prop) (act : U → Nat → Nat → V → V),
    Lawful X P act → KeepVal X P → ∀ (need : Nat → Nat), Roomy need → ∀ (t : SegT V U) (xs : List V),
    TRep X P act t xs → ∀ (k : Nat),
    (∀ a b t', queryT X k t a b = .ok (none, t') → ∃ ys, TRep X P act t' ys) ∧
    (∀ a b u t', P u → queryUpdateT X k t a b u = .ok (none, t') → ∃ ys, TRep X P act t' ys) ∧
    (∀ input number t', input.length ≤ W → input.take number ≠ [] →
      buildT X need k t input number = .ok (none, t') → ∃ ys, TRep X P act t' ys)

/-- C160, the part that holds for queries: a query that throws, at whatever operation, leaves every later answer as it was. -/
theorem C160_query_partial (X : Transform T V U) (P : U → Prop) (act : U → Nat → Nat → V → V) (L : Lawful X P act)
    (KV : KeepVal X P) (t : SegT V U) (xs : List V) (r : TRep X P act t xs) (a b k : Nat) :
    ∃ o t', queryT X k t a b = .ok (o, t') ∧ TRep X P act t' xs ∧
      ∀ v, o = some v → v = joinAll X.join X.dflt (slice xs (lo xs.length a b) (hi xs.length a b)) := by
  obtain ⟨o, t', qs', e, g, -, c⟩ := queryT_good L KV (tgood_of_trep r) a b k
  refine ⟨o, t', e, ?_, ?_⟩
  · cases o with
    | none =>
      cases c
      exact trep_of_tgood g
    | some v =>
      cases c with
      | query hv =>
        have : (if lo xs.length a b = hi xs.length a b then ([] : List Nat).filter (· ≠ lo xs.length a b) else []) = [] := by
          split <;> rfl
        rw [this] at g
        exact trep_of_tgood g
  · rintro v rfl
    cases c with
    | query hv => exact hv (.inr fun q hq => by cases hq)

/-- A tree for the examples: four numbers with range additions and sums, one addition already pending. -/
def sample : SegT Int Int := ((build addSum exactNeed SegT.new [1, 2, 3, 4] 4 >>= fun t => queryUpdate addSum t 0 3 10 >>= fun r =>
  Res.ok r.2).toOption).getD SegT.new

theorem keepVal_addSum : KeepVal addSum (fun _ => True) := fun _ _ _ _ _ => rfl

example : (queryT addSum 3 sample 1 2).toOption.map (·.1) = some none ∧
    (queryT addSum 3 sample 1 2).toOption.map (·.2 == sample) = some false ∧
    ((queryT addSum 3 sample 1 2 >>= fun r => query addSum r.2 1 2).toOption.map (·.1)) = some 25 := by decide +kernel

/-- C160, the part that holds for all calls: in every history of queries and updates in which any operations throw, the
elements are those of the completed updates and of a first part of each interrupted one; one-element queries return them, and
so do queries of ranges in which no update was interrupted. -/
theorem C160_history_partial (X : Transform T V U) (P : U → Prop) (act : U → Nat → Nat → V → V) (L : Lawful X P act)
    (KV : KeepVal X P) (need : Nat → Nat) (hneed : Roomy need) (input : List T) (number : Nat) (hb : input.length ≤ W)
    (hne : input.take number ≠ []) (ops : List (Op T U × Nat)) (hops : ∀ op ∈ ops, CallOk P op.1) :
    ∃ t t' os xs' qs', build X need (SegT.new : SegT V U) input number = .ok t ∧ runT X need t ops = .ok (t', os) ∧
      CallsSpec X act ((input.take number).mapIdx fun p x => X.build x p) [] (ops.map (·.1)) os xs' qs' := by
  obtain ⟨t, e, r, -⟩ := build_spec (act := act) L.none_has L.none_P L.assoc hneed SegT.new input number hb hne
  obtain ⟨t', os, xs', qs', e2, -, c⟩ := runT_good L KV need ops (tgood_of_trep r) hops
  exact ⟨t, t', os, xs', qs', e, e2, c⟩

/-- C160, repairing: after such a history, reading the elements at the positions where updates were interrupted makes the tree
represent its elements again, whatever these are. -/
theorem C160_repair (X : Transform T V U) (P : U → Prop) (act : U → Nat → Nat → V → V) (L : Lawful X P act)
    (KV : KeepVal X P) (need : Nat → Nat) (hneed : Roomy need) (input : List T) (number : Nat) (hb : input.length ≤ W)
    (hne : input.take number ≠ []) (ops : List (Op T U × Nat)) (hops : ∀ op ∈ ops, CallOk P op.1) :
    ∃ t t' os xs' qs', build X need (SegT.new : SegT V U) input number = .ok t ∧ runT X need t ops = .ok (t', os) ∧
      CallsSpec X act ((input.take number).mapIdx fun p x => X.build x p) [] (ops.map (·.1)) os xs' qs' ∧
      ∀ ps : List Nat, (∀ q ∈ qs', q ∈ ps) → (∀ p ∈ ps, p < xs'.length) →
        ∃ t'' vs, run X need t' (ps.map fun p => .query p p) = .ok (t'', vs) ∧ TRep X P act t'' xs' := by
  obtain ⟨t, e, r, -⟩ := build_spec (act := act) L.none_has L.none_P L.assoc hneed SegT.new input number hb hne
  obtain ⟨t', os, xs', qs', e2, g, c⟩ := runT_good L KV need ops (tgood_of_trep r) hops
  refine ⟨t, t', os, xs', qs', e, e2, c, fun ps => ?_⟩
  clear c e2
  induction ps generalizing t' qs' with
  | nil =>
    intro h1 _
    have : qs' = [] := List.eq_nil_iff_forall_not_mem.2 fun q hq => by cases h1 q hq
    subst this
    exact ⟨t', [], rfl, trep_of_tgood g⟩
  | cons p ps ih =>
    intro h1 h2
    obtain ⟨v, t1, e1, -, g1⟩ := query_good L KV g p p
    have hp := h2 p List.mem_cons_self
    have elo : lo xs'.length p p = p := by unfold lo; omega
    have ehi : hi xs'.length p p = p := by unfold hi; omega
    rw [elo, ehi, if_pos rfl] at g1
    obtain ⟨t2, vs, e3, g3⟩ := ih t1 _ g1 (fun q hq => by
      simp only [List.mem_filter, decide_eq_true_eq] at hq
      exact (List.mem_cons.1 (h1 q hq.1)).resolve_left hq.2) (fun q hq => h2 q (List.mem_cons_of_mem _ hq))
    exact ⟨t2, some v :: vs, by simp only [List.map_cons, run, e1, e3, Res.bind_ok], g3⟩

example : (runT addSum exactNeed sample [(.update 0 2 100, 6), (.query 0 3, 99), (.query 2 2, 99), (.query 0 3, 99)]).toOption.map
    (·.2) = some [.threw, .value 50, .value 13, .value 250] := by decide +kernel

/-! #### Where it fails -/

/-- An update that throws after it reached one of two elements: the root still holds the old sum. -/
def torn : SegT Int Int := ((build addSum exactNeed SegT.new [1, 2] 2 >>= fun t => queryUpdateT addSum 3 t 0 0 10 >>= fun r =>
  Res.ok r.2).toOption).getD SegT.new

/-- C160 fails for updates: adding 10 to the first of the elements 1, 2 throws in the last `join`; the elements are 11 and 2 but
the query of both returns 3, so the tree represents no elements at all. -/
theorem C160_counterexample_update :
    (build addSum exactNeed SegT.new [1, 2] 2 >>= fun t => queryUpdateT addSum 3 t 0 0 10) = .ok (none, torn) ∧
    (run addSum exactNeed torn [.query 0 1, .query 0 0, .query 1 1, .query 0 1]).toOption.map (·.2) =
      some [some 3, some 11, some 2, some 13] ∧
    ¬ ∃ ys, TRep addSum (fun _ => True) (fun u a b v => v + u * (b + 1 - a : Nat)) torn ys := by
  refine ⟨by decide +kernel, by decide +kernel, ?_⟩
  rintro ⟨ys, r⟩
  obtain ⟨t', e, -⟩ := run_spec C57_addSum_lawful roomy_exact
    [.query 0 1, .query 0 0, .query 1 1, .query 0 1] r (fun op hop => by
      simp only [List.mem_cons, List.not_mem_nil, or_false] at hop
      rcases hop with rfl | rfl | rfl | rfl <;> trivial)
  have h2 : (run addSum exactNeed torn [.query 0 1, .query 0 0, .query 1 1, .query 0 1]).toOption.map (·.2) =
      some [some 3, some 11, some 2, some 13] := by decide +kernel
  rw [e] at h2
  simp only [Res.toOption, Option.map_some, Spec.specRun, Option.some.injEq, List.cons.injEq, and_true] at h2
  omega

/-- C160 fails for `rebuild`: a tree of one element is rebuilt from four and the allocation throws.  `size()` is already 4 and
the tree still counts as built, so the next query of all elements returns a value that was never assigned (UB). -/
theorem C160_counterexample_rebuild :
    (do
      let t ← build addSum exactNeed SegT.new [7] 1
      let (o, t) ← buildT addSum exactNeed 0 t [1, 2, 3, 4] 4
      Res.ok (o, t.size, t.built)) = .ok (none, 4, true) ∧
    (do
      let t ← build addSum exactNeed SegT.new [7] 1
      let (_, t) ← buildT addSum exactNeed 0 t [1, 2, 3, 4] 4
      query addSum t 0 3) = .ub := by decide +kernel

theorem C160_not : ¬ C160_statement := fun h => by
  obtain ⟨e1, -, e2⟩ := C160_counterexample_update
  obtain ⟨t, b1, b2⟩ := Res.bind_eq_ok.1 e1
  obtain ⟨t', c1, r, -⟩ := build_spec (X := addSum) (act := fun u a b v => v + u * (b + 1 - a : Nat)) (P := fun _ => True)
    rfl trivial (fun x y z => Int.add_assoc x y z) roomy_exact SegT.new [1, 2] 2 (by decide) (by decide)
  rw [c1] at b1
  injection b1 with b1
  subst b1
  exact e2 ((h Int Int Int addSum (fun _ => True) _ C57_addSum_lawful keepVal_addSum exactNeed roomy_exact t' _ r 3).2.1
    0 0 10 torn trivial b2)

/-- A lawful transform whose `propagate` does not keep the value of the node (the tree joins it again anyway). -/
def addSumSloppy : Transform Int Int Int :=
  { addSum with
    propagate := fun n l r => let c := addSum.propagate n l r; ({ c.1 with value := 0 }, c.2.1, c.2.2) }

/-- C160, why `propagate` has to keep the value: without it a query that throws damages the tree. -/
theorem C160_keepVal_needed :
    Lawful addSumSloppy (fun _ => True) (fun u a b v => v + u * (b + 1 - a : Nat)) ∧
    (run addSumSloppy exactNeed SegT.new [.rebuild [1, 2] 2, .update 0 1 10, .query 0 0, .query 0 1]).toOption.map (·.2) =
      some [none, some 23, some 11, some 23] ∧
    (runT addSumSloppy exactNeed SegT.new [(.rebuild [1, 2] 2, 99), (.update 0 1 10, 99), (.query 0 0, 3), (.query 0 1, 99)]).toOption.map
      (·.2) = some [.done, .value 23, .threw, .value 0] := by
  refine ⟨?_, by decide +kernel, by decide +kernel⟩
  obtain ⟨a1, a2, a3, a4, a5, a6, a7⟩ := C57_addSum_lawful
  refine ⟨a1, a2, a3, a4, a5, a6, fun n l r h1 h2 h3 h4 h5 h6 h7 => ?_⟩
  obtain ⟨n', l', r', e, ⟨c1, c2, c3, c4, c5⟩, c6⟩ := a7 n l r h1 h2 h3 h4 h5 h6 h7
  refine ⟨{ n' with value := 0 }, l', r', ?_, ⟨c1, c2, c3, c4, c5⟩, c6⟩
  show (let c := addSum.propagate n l r; (({ c.1 with value := 0 } : RNode Int Int), c.2.1, c.2.2)) = _
  rw [e]

/-! #### Building -/

/-- C160, first build: if it throws the tree stays unbuilt, and queries and updates throw `heap_not_built_exception_t`. -/
theorem C160_first_build (X : Transform T V U) (need : Nat → Nat) (k : Nat) (t t' : SegT V U) (input : List T) (number : Nat)
    (hb : t.built = false) (h : buildT X need k t input number = .ok (none, t')) (a b : Nat) (u : U) :
    t'.built = false ∧ query X t' a b = .exc .notBuilt ∧ queryUpdate X t' a b u = .exc .notBuilt := by
  have key : t'.built = false := by
    unfold buildT at h
    simp only at h
    generalize (if number < input.length then number else input.length) = size at h
    by_cases c : size ≠ 0
    · rw [if_pos c] at h
      split at h
      · cases h; exact hb
      · split at h
        · cases h; exact hb
        · obtain ⟨h1, -, h⟩ := Res.bind_eq_ok.1 h
          obtain ⟨⟨o, h2⟩, -, h⟩ := Res.bind_eq_ok.1 h
          cases o with
          | none => cases h; exact hb
          | some o => cases h
    · rw [if_neg c] at h
      cases h
  exact ⟨key, by simp [query, key], by simp [queryUpdate, key]⟩

example : (runT addSum exactNeed SegT.new [(.rebuild [1, 2, 3] 3, 4), (.rebuild [1, 2, 3] 3, 99), (.query 0 2, 99)]).toOption.map
    (·.2) = some [.threw, .done, .value 6] ∧
    (runT addSum exactNeed SegT.new [(.rebuild [1, 2, 3] 3, 4), (.query 0 2, 99)]) = .exc .notBuilt := by decide +kernel

/-- C160, a build that completes is the build without exceptions. -/
theorem C160_same_build (X : Transform T V U) (need : Nat → Nat) (k : Nat) (t t' : SegT V U) (input : List T) (number : Nat)
    (h : buildT X need k t input number = .ok (some (), t')) : build X need t input number = .ok t' := by
  unfold buildT at h
  simp only at h
  unfold build
  simp only
  generalize (if number < input.length then number else input.length) = size at h ⊢
  by_cases c : size ≠ 0
  · rw [if_pos c] at h ⊢
    split at h
    · cases h
    · split at h
      · cases h
      · obtain ⟨h1, e1, h⟩ := Res.bind_eq_ok.1 h
        obtain ⟨⟨o, h2⟩, e2, h⟩ := Res.bind_eq_ok.1 h
        cases o with
        | none => cases h
        | some o =>
          simp only [e1, Res.bind_ok, buildNodeT_some X input _ e2]
          cases h; rfl
  · rw [if_neg c] at h ⊢
    cases h; rfl

/-- C160, a `rebuild` that completes repairs a tree in whatever state exceptions left it. -/
theorem C160_rebuild (X : Transform T V U) (P : U → Prop) (act : U → Nat → Nat → V → V) (L : Lawful X P act)
    (need : Nat → Nat) (hneed : Roomy need) (k : Nat) (t t' : SegT V U) (input : List T) (number : Nat) (hb : input.length ≤ W)
    (hne : input.take number ≠ []) (h : buildT X need k t input number = .ok (some (), t')) :
    TRep X P act t' ((input.take number).mapIdx fun p x => X.build x p) := by
  obtain ⟨t1, e, r, -⟩ := build_spec (act := act) L.none_has L.none_P L.assoc hneed t input number hb hne
  rw [C160_same_build X need k t t' input number h] at e
  injection e with e
  subst e
  exact r

example : (do
      let t ← build addSum exactNeed SegT.new [7] 1
      let (_, t) ← buildT addSum exactNeed 0 t [1, 2, 3, 4] 4
      let (o, t) ← buildT addSum exactNeed 99 t [1, 2, 3, 4] 4
      let (v, _) ← query addSum t 0 3
      Res.ok (o, v)) = .ok (some (), 10) := by decide +kernel

/-- C160, a query or update that completes is the call without exceptions, and with enough operations it completes. -/
theorem C160_same (X : Transform T V U) (t : SegT V U) (a b : Nat) (u : U) :
    (∀ k v t', queryT X k t a b = .ok (some v, t') → query X t a b = .ok (v, t')) ∧
    (∀ k v t', queryUpdateT X k t a b u = .ok (some v, t') → queryUpdate X t a b u = .ok (v, t')) ∧
    (∀ v t', query X t a b = .ok (v, t') → ∃ c, (∀ k, c ≤ k → queryT X k t a b = .ok (some v, t')) ∧
      ∀ k, k < c → ∃ t'', queryT X k t a b = .ok (none, t'')) ∧
    (∀ v t', queryUpdate X t a b u = .ok (v, t') → ∃ c, (∀ k, c ≤ k → queryUpdateT X k t a b u = .ok (some v, t')) ∧
      ∀ k, k < c → ∃ t'', queryUpdateT X k t a b u = .ok (none, t'')) := by
  have fo : finOf (if X.has u = true then some fun n => X.apply n u else none) = fun n => if X.has u = true then X.apply n u else n := by
    funext n
    by_cases hh : X.has u = true
    · simp only [if_pos hh, finOf]
    · simp only [if_neg hh, finOf]
  have fn : (finOf none : RNode V U → RNode V U) = fun n => n := rfl
  refine ⟨fun k v t' H => ?_, fun k v t' H => ?_, fun v t' H => ?_, fun v t' H => ?_⟩
  · unfold queryT at H
    unfold query
    split at H
    · cases H
    · next hb =>
      rw [if_neg hb]
      simp only at H
      cases k with
      | zero => cases H
      | succ k =>
        obtain ⟨n0, e0, H⟩ := Res.bind_eq_ok.1 H
        obtain ⟨⟨o, h⟩, e1, H⟩ := Res.bind_eq_ok.1 H
        rw [rangeQueryT_eq_walkT] at e1
        cases o with
        | none => cases H
        | some p =>
          obtain ⟨k', w⟩ := p
          have e2 := walkT_some _ _ _ _ e1
          rw [fn] at e2
          simp only [e0, Res.bind_ok, rangeQuery_eq_walk, e2]
          cases H; rfl
  · unfold queryUpdateT at H
    unfold queryUpdate
    split at H
    · cases H
    · next hb =>
      rw [if_neg hb]
      simp only at H
      cases k with
      | zero => cases H
      | succ k =>
        obtain ⟨n0, e0, H⟩ := Res.bind_eq_ok.1 H
        obtain ⟨⟨o, h⟩, e1, H⟩ := Res.bind_eq_ok.1 H
        rw [rangeUpdateT_eq_walkT] at e1
        cases o with
        | none => cases H
        | some p =>
          obtain ⟨k', w⟩ := p
          have e2 := walkT_some _ _ _ _ e1
          rw [fo] at e2
          simp only [e0, Res.bind_ok, rangeUpdate_eq_walk, e2]
          cases H; rfl
  · unfold query at H
    split at H
    · cases H
    · next hb =>
      obtain ⟨n0, e0, H⟩ := Res.bind_eq_ok.1 H
      obtain ⟨⟨w, h⟩, e1, H⟩ := Res.bind_eq_ok.1 H
      rw [rangeQuery_eq_walk, ← fn] at e1
      obtain ⟨c, -, r1, r2⟩ := walkT_runs X _ none _ _ _ _ _ _ _ e1
      cases H
      refine ⟨c + 1, fun k hk => ?_, fun k hk => ?_⟩
      · obtain ⟨d, rfl⟩ := Nat.exists_eq_add_of_le hk
        unfold queryT
        rw [if_neg hb, show c + 1 + d = (c + d) + 1 by omega]
        simp only [e0, Res.bind_ok, rangeQueryT_eq_walkT, r1 d, Option.map_some]
      · unfold queryT
        rw [if_neg hb]
        cases k with
        | zero => exact ⟨_, rfl⟩
        | succ k =>
          obtain ⟨h'', e2⟩ := r2 k (by omega)
          simp only [e0, Res.bind_ok, rangeQueryT_eq_walkT, e2, Option.map_none]
          exact ⟨_, rfl⟩
  · unfold queryUpdate at H
    split at H
    · cases H
    · next hb =>
      obtain ⟨n0, e0, H⟩ := Res.bind_eq_ok.1 H
      obtain ⟨⟨w, h⟩, e1, H⟩ := Res.bind_eq_ok.1 H
      rw [rangeUpdate_eq_walk, ← fo] at e1
      obtain ⟨c, -, r1, r2⟩ := walkT_runs X _ _ _ _ _ _ _ _ _ e1
      cases H
      refine ⟨c + 1, fun k hk => ?_, fun k hk => ?_⟩
      · obtain ⟨d, rfl⟩ := Nat.exists_eq_add_of_le hk
        unfold queryUpdateT
        rw [if_neg hb, show c + 1 + d = (c + d) + 1 by omega]
        simp only [e0, Res.bind_ok, rangeUpdateT_eq_walkT, r1 d, Option.map_some]
      · unfold queryUpdateT
        rw [if_neg hb]
        cases k with
        | zero => exact ⟨_, rfl⟩
        | succ k =>
          obtain ⟨h'', e2⟩ := r2 k (by omega)
          simp only [e0, Res.bind_ok, rangeUpdateT_eq_walkT, e2, Option.map_none]
          exact ⟨_, rfl⟩

/-! #### Memory safety -/

theorem TShape.lastPos {t : SegT V U} (r : TShape t) : lastPos t = t.size - 1 := by
  have h1 := r.pos
  have h2 := r.bound
  have h3 : 0 < W := by decide
  unfold Seg.lastPos
  have : t.size + W - 1 = (t.size - 1) + W := by omega
  rw [this, Nat.add_mod_right, Nat.mod_eq_of_lt (by omega)]

theorem runT_shape (K : Keeps X) (need : Nat → Nat) (ops : List (Op T U × Nat)) :
    ∀ {t : SegT V U}, TShape t →
    (∀ input number k, (Op.rebuild input number, k) ∈ ops → min number input.length = t.size) →
    ∃ t' os, runT X need t ops = .ok (t', os) ∧ TShape t' := by
  induction ops with
  | nil => intro t r _; exact ⟨t, [], rfl, r⟩
  | cons op ops ih =>
    intro t r hops
    have h1 := r.pos
    have hc := r.cap
    obtain ⟨op, k⟩ := op
    have fromHeap : ∀ h' : List (RNode V U), SameBoxes t.heap h' → TShape ({ t with heap := h' } : SegT V U) := fun h' sb =>
      ⟨r.built, h1, r.bound, by show t.size ≤ h'.length; rw [sb.1]; exact hc, r.shape.same sb⟩
    have rest : ∀ t1 : SegT V U, t1.size = t.size → ∀ input number k, (Op.rebuild input number, k) ∈ ops →
        min number input.length = t1.size := fun t1 e input number k h => by
      rw [e]; exact hops input number k (List.mem_cons_of_mem _ h)
    cases op with
    | query a b =>
      have key : ∃ o t1, queryT X k t a b = .ok (o, t1) ∧ TShape t1 ∧ t1.size = t.size := by
        unfold queryT
        rw [if_neg (by simp [r.built]), r.lastPos]
        cases k with
        | zero => exact ⟨none, t, rfl, r, rfl⟩
        | succ k =>
          simp only [Heap.head, rdAt_lt (show 0 < t.heap.length by omega), Res.bind_ok, rangeQueryT_eq_walkT]
          obtain ⟨q, h', e, w⟩ := walkT_shape K (stp := fun n => !X.has n.lazy) (fin := none) (fun _ => ⟨rfl, rfl, rfl⟩)
            t.heap.length (k := k) r.shape (s := min (min a b) (t.size - 1)) (e := min (max a b) (t.size - 1)) (Nat.zero_le _)
            (by omega) (by omega) (by omega)
          rw [e]
          exact ⟨_, _, rfl, fromHeap h' w, rfl⟩
      obtain ⟨o, t1, e1, r1, s1⟩ := key
      obtain ⟨t2, os, e2, r2⟩ := ih r1 (rest t1 s1)
      exact ⟨t2, _ :: os, by simp only [runT, e1, e2, Res.bind_ok]; rfl, r2⟩
    | update a b u =>
      have key : ∃ o t1, queryUpdateT X k t a b u = .ok (o, t1) ∧ TShape t1 ∧ t1.size = t.size := by
        unfold queryUpdateT
        rw [if_neg (by simp [r.built]), r.lastPos]
        cases k with
        | zero => exact ⟨none, t, rfl, r, rfl⟩
        | succ k =>
          simp only [Heap.head, rdAt_lt (show 0 < t.heap.length by omega), Res.bind_ok, rangeUpdateT_eq_walkT]
          obtain ⟨q, h', e, w⟩ := walkT_shape K (stp := fun n => !X.has n.lazy || X.criteria n)
            (fin := if X.has u = true then some fun n => X.apply n u else none)
            (fun n => by
              by_cases hh : X.has u = true
              · rw [if_pos hh]; exact K.apply n u
              · rw [if_neg hh]; exact ⟨rfl, rfl, rfl⟩)
            t.heap.length (k := k) r.shape (s := min (min a b) (t.size - 1)) (e := min (max a b) (t.size - 1)) (Nat.zero_le _)
            (by omega) (by omega) (by omega)
          rw [e]
          exact ⟨_, _, rfl, fromHeap h' w, rfl⟩
      obtain ⟨o, t1, e1, r1, s1⟩ := key
      obtain ⟨t2, os, e2, r2⟩ := ih r1 (rest t1 s1)
      exact ⟨t2, _ :: os, by simp only [runT, e1, e2, Res.bind_ok]; rfl, r2⟩
    | rebuild input number =>
      have hsz := hops input number k List.mem_cons_self
      have key : ∃ o t1, buildT X need k t input number = .ok (o, t1) ∧ TShape t1 ∧ t1.size = t.size := by
        have hsize : (if number < input.length then number else input.length) = t.size := by split <;> omega
        unfold buildT
        simp only [hsize]
        rw [if_pos (by omega)]
        -- growing the vector keeps the boxes
        have grown : ∀ h : List (RNode V U), (if t.heap.length < need t.size then resize (dfltNode X) t.heap (need t.size)
            else t.heap) = h → t.heap.length ≤ h.length ∧ ∀ (j : Nat) n, t.heap[j]? = some n → h[j]? = some n := by
          intro h e
          subst e
          split
          · refine ⟨by simp [resize]; omega, fun j n hj => ?_⟩
            have hlt := (List.getElem?_eq_some_iff.1 hj).1
            unfold resize
            rw [List.take_of_length_le (by omega), List.getElem?_append_left hlt]
            exact hj
          · exact ⟨Nat.le_refl _, fun j n hj => hj⟩
        generalize hh : (if t.heap.length < need t.size then resize (dfltNode X) t.heap (need t.size) else t.heap) = h
        obtain ⟨g1, g2⟩ := grown h hh
        have shp : Shape h 0 0 (t.size - 1) := r.shape.frame fun j n _ hn => ⟨n, g2 j n hn, rfl, rfl, rfl⟩
        split
        · exact ⟨none, _, rfl, ⟨r.built, h1, r.bound, hc, r.shape⟩, rfl⟩
        · split
          · exact ⟨none, _, rfl, ⟨r.built, h1, r.bound, by show t.size ≤ h.length; omega, shp⟩, rfl⟩
          · next k' _ =>
            unfold wrAt
            rw [if_pos (show 0 < h.length by omega)]
            simp only [Res.bind_ok]
            obtain ⟨n, hn, n1, n2, n3⟩ := shp.root
            have sb : SameBoxes h (put h 0 ⟨0, t.size - 1, 0, X.dflt, X.none⟩) := .put hn ⟨n1.symm, n2.symm, n3.symm⟩
            obtain ⟨q, h', e, w⟩ := buildNodeT_shape (X := X) (input := input)
              (put h 0 ⟨0, t.size - 1, 0, X.dflt, X.none⟩).length (k := k') (shp.same sb) (by omega)
              (by simp only [put, List.length_set]; omega)
            have e' : buildNodeT X input (h.set 0 ⟨0, t.size - 1, 0, X.dflt, X.none⟩).length 0 k'
              (h.set 0 ⟨0, t.size - 1, 0, X.dflt, X.none⟩) = .ok (q, h') := e
            rw [e']
            have sbt := sb.trans w
            have cap : t.size ≤ h'.length := by rw [sbt.1]; omega
            cases q with
            | none => exact ⟨none, _, rfl, ⟨r.built, h1, r.bound, cap, shp.same sbt⟩, rfl⟩
            | some q => exact ⟨some (), _, rfl, ⟨rfl, h1, r.bound, cap, shp.same sbt⟩, rfl⟩
      obtain ⟨o, t1, e1, r1, s1⟩ := key
      obtain ⟨t2, os, e2, r2⟩ := ih r1 (rest t1 s1)
      exact ⟨t2, _ :: os, by simp only [runT, e1, e2, Res.bind_ok]; rfl, r2⟩

/-- C160, memory safety: for every transform whose `apply` and `propagate` keep bounds and indices (no other law), every history
of calls in which any operations throw, also inside rebuilds from as many elements as the tree has, stays inside the heap. -/
theorem C160_basic_partial (X : Transform T V U) (K : Keeps X) (need : Nat → Nat) (hneed : Roomy need) (input : List T)
    (number : Nat) (hb : input.length ≤ W) (hne : input.take number ≠ []) (ops : List (Op T U × Nat))
    (hops : ∀ input' number' k, (Op.rebuild input' number', k) ∈ ops → min number' input'.length = min number input.length) :
    ∃ t t' os, build X need (SegT.new : SegT V U) input number = .ok t ∧ runT X need t ops = .ok (t', os) := by
  obtain ⟨t, e, r, s, -⟩ := build_shape (X := X) hneed SegT.new input number hb hne
  obtain ⟨t', os, e2, -⟩ := runT_shape K need ops r (fun i n k h => by rw [s]; exact hops i n k h)
  exact ⟨t, t', os, e, e2⟩

example : (runT addSum exactNeed sample [(.update 1 3 5, 7), (.rebuild [5, 6, 7, 8] 9, 6), (.query 0 3, 99), (.query 1 2, 2),
    (.query 3 3, 99)]).toOption.map (·.2) = some [.threw, .threw, .value 0, .threw, .value 4] := by decide +kernel

end Verif.Seg
