import Verif.Cache.Unequal

/-! C164: LRU caches of keys that are not equal to themselves, or equal to other keys. -/

namespace Verif.Cache.Unequal
open Verif.Cache (Op Out)

variable {K : Type}

/-- The full statement: whatever calls made the cache, if its capacity is not 0, an added key is contained, `operator[]`
returns a key equal to the argument, and the map has no more entries than the cache may hold. -/
def Faithful (eq : K → K → Bool) : Prop :=
  ∀ cap (ops : List (Op K)) c os, run eq (Cache.new cap) ops = .ok (c, os) → c.maxElements ≠ 0 →
    (∀ k, (c.add eq k).contains eq k = true) ∧
    (∀ k, ∃ c' e, step eq c (.access k) = .ok (c', .elem e) ∧ eq k e = true) ∧
    c.map.length ≤ c.maxElements

/-- Result of a history of the model and of the specification: both undefined, or the same outputs, keys, capacity, flags and
discarded keys, and as many map entries as keys equal to themselves and stale ones. -/
def Same (eq : K → K → Bool) (r : Res (Cache K × List (Out K))) (t : Res (Spec.LRU K × List (Out K))) : Prop :=
  match r, t with
  | .ok (c, os), .ok (s, os') => os = os' ∧ c.values = s.keys ∧ c.maxElements = s.cap ∧ c.last = s.last ∧ c.clipped = s.clipped ∧
      c.log = s.discarded ∧ c.map.length = (s.keys.filter fun k => eq k k).length + s.stale ∧
      ∀ k, c.contains eq k = s.keys.any (eq k)
  | .ub, .ub => True
  | _, _ => False

theorem run_rel {eq : K → K → Bool} (he : Per eq) : ∀ (ops : List (Op K)) {c : Cache K} {s : Spec.LRU K}, Rel eq c s →
    (∃ c' s' os, run eq c ops = .ok (c', os) ∧ s.run eq ops = .ok (s', os) ∧ Rel eq c' s') ∨
    (run eq c ops = .ub ∧ s.run eq ops = .ub) := by
  intro ops
  induction ops with
  | nil => intro c s h; exact .inl ⟨c, s, [], rfl, rfl, h⟩
  | cons op ops ih =>
    intro c s h
    have h1 := rel_step he h op
    simp only [run, Spec.LRU.run]
    generalize step eq c op = r at h1
    generalize s.step eq op = t at h1
    cases r with
    | exc e => cases t <;> exact h1.elim
    | ub =>
      cases t with
      | ub => exact .inr ⟨rfl, rfl⟩
      | ok t => exact h1.elim
      | exc e => exact h1.elim
    | ok r =>
      cases t with
      | ub => exact h1.elim
      | exc e => exact h1.elim
      | ok t =>
        obtain ⟨c1, o⟩ := r
        obtain ⟨s1, o'⟩ := t
        obtain ⟨h2, rfl⟩ := h1
        simp only [Res.bind_ok]
        rcases ih h2 with ⟨c', s', os, e1, e2, e3⟩ | ⟨e1, e2⟩
        · exact .inl ⟨c', s', o :: os, by simp only [e1, Res.bind_ok], by simp only [e2, Res.bind_ok], e3⟩
        · exact .inr ⟨by simp only [e1, Res.bind_ub], by simp only [e2, Res.bind_ub]⟩

theorem rel_new (eq : K → K → Bool) (cap : Nat) : Rel eq (Cache.new cap) (Spec.LRU.new cap) :=
  ⟨⟨List.nodup_nil, fun _ hp => by (cases hp), List.Pairwise.nil, fun _ => rfl, List.Pairwise.nil⟩, rfl, rfl, rfl, rfl, rfl, rfl⟩

/-- Every history of calls behaves as the recency list in which a key counts as held if an equal key is: the same outputs,
keys, discards and flags, and undefined behaviour exactly for `operator[]` of an absent key when the capacity is 0 or the key is
unequal to itself. The map also keeps an entry for every key unequal to itself that was added since the last `clear`, also after
it was discarded. What is missing for the full statement `Faithful` is false (`C164_not`). -/
theorem C164_partial (eq : K → K → Bool) (he : Per eq) (cap : Nat) (ops : List (Op K)) :
    Same eq (run eq (Cache.new cap) ops) ((Spec.LRU.new cap).run eq ops) := by
  rcases run_rel he ops (rel_new eq cap) with ⟨c, s, os, e1, e2, h⟩ | ⟨e1, e2⟩
  · rw [e1, e2]
    exact ⟨rfl, h.values, h.cap, h.last, h.clipped, h.log, h.count, fun k => rel_contains h k⟩
  · rw [e1, e2]; trivial

/-- The keys held never exceed the capacity. -/
theorem spec_cap {eq : K → K → Bool} (he : Per eq) : ∀ (ops : List (Op K)) (s s' : Spec.LRU K) os, s.keys.length ≤ s.cap →
    s.run eq ops = .ok (s', os) → s'.keys.length ≤ s'.cap := by
  intro ops
  induction ops with
  | nil => intro s s' os h e; simp only [Spec.LRU.run, Res.ok.injEq, Prod.mk.injEq] at e; rw [← e.1]; exact h
  | cons op ops ih =>
    intro s s' os h e
    simp only [Spec.LRU.run] at e
    rw [Res.bind_eq_ok] at e
    obtain ⟨⟨s1, o⟩, e1, e⟩ := e
    rw [Res.bind_eq_ok] at e
    obtain ⟨⟨s2, os'⟩, e2, e⟩ := e
    simp only [Res.ok.injEq, Prod.mk.injEq] at e
    rw [← e.1]
    refine ih s1 s2 os' ?_ e2
    have htrim : ∀ s : Spec.LRU K, s.trim.keys.length ≤ s.trim.cap := fun s => by simp [Spec.LRU.trim]; omega
    have htouch : ∀ k r, s.keys.find? (eq k) = some r → (r :: s.keys.filter (fun q => !eq k q)).length ≤ s.cap := by
      intro k r hr
      have : (s.keys.filter (fun q => !eq k q)).length < s.keys.length := by
        rw [List.length_filter_lt_length_iff_exists]
        exact ⟨r, List.mem_of_find?_eq_some hr, by simpa using List.find?_some hr⟩
      simp only [List.length_cons]; omega
    cases op with
    | add k =>
      simp only [Spec.LRU.step] at e1
      split at e1
      · simp only [Res.ok.injEq, Prod.mk.injEq] at e1; rw [← e1.1]; exact h
      · simp only [Res.ok.injEq, Prod.mk.injEq] at e1; rw [← e1.1]; exact htrim _
    | find k =>
      simp only [Spec.LRU.step] at e1
      cases hf : s.keys.find? (eq k) with
      | none => rw [hf] at e1; simp only [Res.ok.injEq, Prod.mk.injEq] at e1; rw [← e1.1]; exact h
      | some r => rw [hf] at e1; simp only [Res.ok.injEq, Prod.mk.injEq] at e1; rw [← e1.1]; exact htouch k r hf
    | access k =>
      simp only [Spec.LRU.step] at e1
      cases hf : s.keys.find? (eq k) with
      | none =>
        rw [hf] at e1
        simp only at e1
        split at e1
        · simp only [Res.ok.injEq, Prod.mk.injEq] at e1; rw [← e1.1]; exact htrim _
        · cases e1
      | some r => rw [hf] at e1; simp only [Res.ok.injEq, Prod.mk.injEq] at e1; rw [← e1.1]; exact htouch k r hf
    | remove k =>
      simp only [Spec.LRU.step, Res.ok.injEq, Prod.mk.injEq] at e1; rw [← e1.1]
      exact Nat.le_trans (List.length_filter_le _ _) h
    | clear => simp only [Spec.LRU.step, Res.ok.injEq, Prod.mk.injEq] at e1; rw [← e1.1]; exact Nat.zero_le _
    | setCapacity n => simp only [Spec.LRU.step, Res.ok.injEq, Prod.mk.injEq] at e1; rw [← e1.1]; exact htrim _
    | clip => simp only [Spec.LRU.step, Res.ok.injEq, Prod.mk.injEq] at e1; rw [← e1.1]; exact htrim _

/-- `size()` never exceeds the capacity, whatever keys are used. -/
theorem C164_size (eq : K → K → Bool) (he : Per eq) (cap : Nat) (ops : List (Op K)) (c : Cache K) (os)
    (hr : run eq (Cache.new cap) ops = .ok (c, os)) : c.values.length ≤ c.maxElements := by
  rcases run_rel he ops (rel_new eq cap) with ⟨c', s, os', e1, e2, h⟩ | ⟨e1, e2⟩
  · rw [e1] at hr
    simp only [Res.ok.injEq, Prod.mk.injEq] at hr
    obtain ⟨rfl, -⟩ := hr
    rw [h.values, h.cap]
    exact spec_cap he ops _ _ _ (Nat.zero_le _) e2
  · rw [e1] at hr; cases hr

theorem spec_stale {eq : K → K → Bool} (hrefl : ∀ k, eq k k = true) : ∀ (ops : List (Op K)) (s s' : Spec.LRU K) os, s.stale = 0 →
    s.run eq ops = .ok (s', os) → s'.stale = 0 := by
  intro ops
  induction ops with
  | nil => intro s s' os h e; simp only [Spec.LRU.run, Res.ok.injEq, Prod.mk.injEq] at e; rw [← e.1]; exact h
  | cons op ops ih =>
    intro s s' os h e
    simp only [Spec.LRU.run] at e
    rw [Res.bind_eq_ok] at e
    obtain ⟨⟨s1, o⟩, e1, e⟩ := e
    rw [Res.bind_eq_ok] at e
    obtain ⟨⟨s2, os'⟩, e2, e⟩ := e
    simp only [Res.ok.injEq, Prod.mk.injEq] at e
    rw [← e.1]
    refine ih s1 s2 os' ?_ e2
    cases op with
    | add k =>
      simp only [Spec.LRU.step] at e1
      split at e1 <;> simp only [Res.ok.injEq, Prod.mk.injEq] at e1 <;> rw [← e1.1]
      · exact h
      · simp [Spec.LRU.push, Spec.LRU.trim, hrefl, h]
    | find k =>
      simp only [Spec.LRU.step] at e1
      cases hf : s.keys.find? (eq k) <;> rw [hf] at e1 <;> simp only [Res.ok.injEq, Prod.mk.injEq] at e1 <;> rw [← e1.1] <;> exact h
    | access k =>
      simp only [Spec.LRU.step] at e1
      cases hf : s.keys.find? (eq k) with
      | none =>
        rw [hf] at e1
        simp only at e1
        split at e1
        · simp only [Res.ok.injEq, Prod.mk.injEq] at e1; rw [← e1.1]; simp [Spec.LRU.push, Spec.LRU.trim, hrefl, h]
        · cases e1
      | some r => rw [hf] at e1; simp only [Res.ok.injEq, Prod.mk.injEq] at e1; rw [← e1.1]; exact h
    | remove k => simp only [Spec.LRU.step, Res.ok.injEq, Prod.mk.injEq] at e1; rw [← e1.1]; exact h
    | clear => simp only [Spec.LRU.step, Res.ok.injEq, Prod.mk.injEq] at e1; rw [← e1.1]
    | setCapacity n => simp only [Spec.LRU.step, Res.ok.injEq, Prod.mk.injEq] at e1; rw [← e1.1]; exact h
    | clip => simp only [Spec.LRU.step, Res.ok.injEq, Prod.mk.injEq] at e1; rw [← e1.1]; exact h

/-- The full statement holds if every key is equal to itself. -/
theorem C164_reflexive (eq : K → K → Bool) (he : Per eq) (hrefl : ∀ k, eq k k = true) : Faithful eq := by
  intro cap ops c os hr hne
  rcases run_rel he ops (rel_new eq cap) with ⟨c', s, os', e1, e2, h⟩ | ⟨e1, e2⟩
  · rw [e1] at hr
    simp only [Res.ok.injEq, Prod.mk.injEq] at hr
    obtain ⟨rfl, -⟩ := hr
    have hcap : s.cap ≠ 0 := h.cap ▸ hne
    obtain ⟨n, hn⟩ := Nat.exists_eq_succ_of_ne_zero hcap
    refine ⟨fun k => ?_, fun k => ?_, ?_⟩
    · have ha := rel_add he h k
      rw [rel_contains ha]
      by_cases hc : s.keys.any (eq k) = true
      · rw [if_pos hc]; exact hc
      · rw [if_neg hc]
        simp [Spec.LRU.push, Spec.LRU.trim, hn, hrefl]
    · have hs := rel_step he h (.access k)
      simp only [Spec.LRU.step] at hs
      cases hf : s.keys.find? (eq k) with
      | none =>
        rw [hf] at hs
        simp only [hcap, hrefl, ne_eq, not_false_eq_true, and_self, if_true] at hs
        generalize step eq c' (.access k) = r at hs
        cases r with
        | ok r => obtain ⟨c2, o⟩ := r; exact ⟨c2, k, by rw [hs.2], hrefl k⟩
        | exc e => exact hs.elim
        | ub => exact hs.elim
      | some q =>
        rw [hf] at hs
        simp only at hs
        generalize step eq c' (.access k) = r at hs
        cases r with
        | ok r => obtain ⟨c2, o⟩ := r; exact ⟨c2, q, by rw [hs.2], by simpa using List.find?_some hf⟩
        | exc e => exact hs.elim
        | ub => exact hs.elim
    · rw [h.count, h.cap, spec_stale hrefl ops _ _ _ rfl e2, List.filter_eq_self.2 fun k _ => hrefl k]
      exact spec_cap he ops _ _ _ (Nat.zero_le _) e2
  · rw [e1] at hr; cases hr

/-- Forget the stale entries. -/
def toOld (s : Spec.LRU K) : Verif.Cache.Spec.LRU K := ⟨s.cap, s.keys, s.last, s.clipped, s.discarded⟩

/-- If equality is identity, the specification is that of C21. -/
theorem C164_same [DecidableEq K] (s : Spec.LRU K) (op : Op K) :
    (match s.step (fun a b => decide (a = b)) op with
      | .ok (s', o) => Res.ok (toOld s', o)
      | .exc e => .exc e
      | .ub => .ub) = (toOld s).step op := by
  have hany : ∀ k, s.keys.any (fun b => decide (k = b)) = decide (k ∈ s.keys) := by
    intro k
    rw [Bool.eq_iff_iff, List.any_eq_true, decide_eq_true_eq]
    constructor
    · rintro ⟨x, h1, h2⟩; rw [decide_eq_true_eq] at h2; exact h2 ▸ h1
    · intro h; exact ⟨k, h, by simp⟩
  have hfind : ∀ k, s.keys.find? (fun b => decide (k = b)) = if k ∈ s.keys then some k else none := by
    intro k
    split
    · next h =>
      have : (s.keys.find? (fun b => decide (k = b))).isSome := List.find?_isSome.2 ⟨k, h, by simp⟩
      obtain ⟨x, hx⟩ := Option.isSome_iff_exists.1 this
      have h2 := List.find?_some hx
      rw [decide_eq_true_eq] at h2
      rw [hx, h2]
    · next h =>
      rw [List.find?_eq_none]
      intro x hx h2
      rw [decide_eq_true_eq] at h2
      exact h (h2 ▸ hx)
  have hfil : ∀ k, s.keys.filter (fun q => !decide (k = q)) = s.keys.filter (· ≠ k) := by
    intro k
    congr 1
    funext q
    rw [← decide_not]
    congr 1
    rw [eq_iff_iff]
    exact ⟨Ne.symm, Ne.symm⟩
  cases op with
  | add k =>
    simp only [Spec.LRU.step, hany, Verif.Cache.Spec.LRU.step, Verif.Cache.Spec.LRU.add, decide_eq_true_eq]
    by_cases h : k ∈ s.keys
    · rw [if_pos h]; simp [toOld, h]
    · rw [if_neg h]; simp [toOld, h, Spec.LRU.push, Spec.LRU.trim, Verif.Cache.Spec.LRU.trim]
  | find k =>
    simp only [Spec.LRU.step, hfind, Verif.Cache.Spec.LRU.step]
    by_cases h : k ∈ s.keys
    · simp [toOld, h, Verif.Cache.Spec.LRU.touch, hfil]
    · simp [toOld, h]
  | access k =>
    simp only [Spec.LRU.step, hfind, Verif.Cache.Spec.LRU.step]
    by_cases h : k ∈ s.keys
    · simp [toOld, h, Verif.Cache.Spec.LRU.touch, hfil]
    · by_cases h0 : s.cap = 0
      · simp [toOld, h, h0]
      · simp [toOld, h, h0, Verif.Cache.Spec.LRU.add, Spec.LRU.push, Spec.LRU.trim, Verif.Cache.Spec.LRU.trim]
  | remove k =>
    simp only [Spec.LRU.step, Verif.Cache.Spec.LRU.step, hfil, hany]
    rfl
  | clear => rfl
  | setCapacity n => rfl
  | clip => rfl

/-! Floating point keys -/

/-- Some floating point numbers: NaN, -0.0 and whole numbers. -/
inductive Fl where
  | nan | negZero | num (n : Int)
deriving DecidableEq, Repr

def Fl.val : Fl → Option Int
  | .nan => none
  | .negZero => some 0
  | .num n => some n

/-- IEEE equality. -/
def ieeeEq (a b : Fl) : Bool := a.val.isSome && a.val == b.val

theorem ieee_per : Per ieeeEq := by
  constructor
  · intro a b h
    simp only [ieeeEq, Bool.and_eq_true, beq_iff_eq] at h ⊢
    exact ⟨h.2 ▸ h.1, h.2.symm⟩
  · intro a b c h1 h2
    simp only [ieeeEq, Bool.and_eq_true, beq_iff_eq] at h1 h2 ⊢
    exact ⟨h1.1, h1.2.trans h2.2⟩

/-- Keys, number of map entries and discarded keys after a history. -/
def look (cap : Nat) (ops : List (Op Fl)) : Option (List Fl × Nat × List Fl) :=
  (run ieeeEq (Cache.new cap) ops).toOption.map fun r => (r.1.values, r.1.map.length, r.1.log)

/-- `cache[NaN]` dereferences a singular iterator. -/
theorem C164_counterexample_access (cap : Nat) : run ieeeEq (Cache.new cap) [.access .nan] = .ub := by
  have h := C164_partial ieeeEq ieee_per cap [.access .nan]
  have e : (Spec.LRU.new cap).run ieeeEq [.access .nan] = .ub := by
    simp [Spec.LRU.run, Spec.LRU.step, Spec.LRU.new, ieeeEq, Fl.val]
  rw [e] at h
  generalize run ieeeEq (Cache.new cap) [.access .nan] = r at h ⊢
  cases r with
  | ub => rfl
  | ok r => exact h.elim
  | exc e => exact h.elim

/-- The full statement is false for floating point keys. -/
theorem C164_not : ¬ Faithful ieeeEq := by
  intro h
  obtain ⟨c', e, h1, -⟩ := (h 1 [] _ _ rfl (by decide)).2.1 .nan
  have h2 := C164_counterexample_access 1
  simp only [run, h1, Res.bind_ok] at h2
  cases h2

/-- The map grows without bound: after `n` calls of `add(NaN)` on a cache of capacity 1 it has `n` entries. -/
theorem C164_unbounded (n : Nat) : ∃ c os, run ieeeEq (Cache.new 1) (List.replicate n (.add .nan)) = .ok (c, os) ∧
    c.map.length = n ∧ c.values.length ≤ 1 := by
  have key : ∀ n (s : Spec.LRU Fl), s.cap = 1 → s.keys.length ≤ 1 → (∀ k ∈ s.keys, k = .nan) →
      ∃ s' os, s.run ieeeEq (List.replicate n (.add .nan)) = .ok (s', os) ∧ s'.stale = s.stale + n ∧
        s'.keys.length ≤ 1 ∧ (∀ k ∈ s'.keys, k = .nan) := by
    intro n
    induction n with
    | zero => intro s _ h2 h3; exact ⟨s, [], rfl, rfl, h2, h3⟩
    | succ n ih =>
      intro s h1 h2 h3
      have hno : s.keys.any (ieeeEq .nan) = false := by
        rw [List.any_eq_false]; intro x _; simp [ieeeEq, Fl.val]
      have hst : (s.push ieeeEq .nan).stale = s.stale + 1 := by simp [Spec.LRU.push, Spec.LRU.trim, ieeeEq, Fl.val]
      obtain ⟨s', os, e1, e2, e3, e4⟩ := ih (s.push ieeeEq .nan) (by simpa [Spec.LRU.push, Spec.LRU.trim] using h1)
        (by simp [Spec.LRU.push, Spec.LRU.trim, h1])
        (by simp [Spec.LRU.push, Spec.LRU.trim, h1])
      refine ⟨s', .none :: os, ?_, by rw [e2, hst]; omega, e3, e4⟩
      simp only [List.replicate_succ, Spec.LRU.run, Spec.LRU.step, hno, Bool.false_eq_true, if_false, Res.bind_ok, e1]
  obtain ⟨s, os, e1, e2, e3, e4⟩ := key n (Spec.LRU.new 1) rfl (Nat.zero_le _) (by simp [Spec.LRU.new])
  have h := C164_partial ieeeEq ieee_per 1 (List.replicate n (.add .nan))
  rw [e1] at h
  generalize run ieeeEq (Cache.new 1) (List.replicate n (.add .nan)) = r at h ⊢
  cases r with
  | ok r =>
    obtain ⟨c, os'⟩ := r
    obtain ⟨-, h2, -, -, -, -, h7, -⟩ := h
    refine ⟨c, os', rfl, ?_, by rw [h2]; exact e3⟩
    have hf : (s.keys.filter fun k => ieeeEq k k) = [] := by
      rw [List.filter_eq_nil_iff]
      intro k hk
      rw [e4 k hk]; decide
    rw [h7, hf, e2]
    simp [Spec.LRU.new]
  | exc e => exact h.elim
  | ub => exact h.elim

/-- NaN pushes numbers out and stays in the map. -/
example : look 2 [.add (.num 1), .add .nan, .add .nan, .add (.num 2)] = some ([.num 2, .nan], 3, [.num 1, .nan]) := by decide +kernel
/-- NaN cannot be removed, `clear` removes it. -/
example : look 2 [.add .nan, .remove .nan] = some ([.nan], 1, []) := by decide +kernel
example : look 2 [.add .nan, .clear] = some ([], 0, []) := by decide +kernel
/-- 0.0 finds -0.0. -/
example : (run ieeeEq (Cache.new 2) [.add .negZero, .add (.num 5), .access (.num 0), .find (.num 0)]).toOption.map
    (fun r => (r.1.values, r.2)) = some ([.negZero, .num 5], [.none, .none, .elem .negZero, .found (some .negZero)]) := by decide +kernel

end Verif.Cache.Unequal
