import Verif.Cache.Lemmas

/-! Property theorems C20–C29: the LRU cache. -/

namespace Verif.Cache
open Spec
set_option linter.unusedSectionVars false
variable {K : Type} [DecidableEq K]

/-- A cache obtained from a constructor by some history of calls. -/
def Reachable (c : Cache K) : Prop :=
  ∃ c0 ops os, (c0 = Cache.newDefault ∨ ∃ cap, c0 = Cache.new cap) ∧ run c0 ops = .ok (c, os)

theorem init_inv {c0 : Cache K} (h : c0 = Cache.newDefault ∨ ∃ cap, c0 = Cache.new cap) :
    Inv c0 ∧ c0.values.length ≤ c0.maxElements := by
  rcases h with rfl | ⟨cap, rfl⟩
  · exact ⟨newDefault_inv.1, Nat.zero_le _⟩
  · refine ⟨(new_inv cap).1, ?_⟩
    have h2 : (abs (Cache.new (K := K) cap)).keys = [] := by rw [(new_inv cap).2]; rfl
    have h3 : (Cache.new (K := K) cap).values = [] := h2
    rw [h3]; exact Nat.zero_le _

theorem Reachable.inv {c : Cache K} (h : Reachable c) : Inv c ∧ c.values.length ≤ c.maxElements := by
  obtain ⟨c0, ops, os, h0, e⟩ := h
  obtain ⟨i0, l0⟩ := init_inv h0
  rcases run_refines ops c0 i0 l0 with ⟨c', os', e', i', l', _⟩ | ⟨e', _⟩
  · rw [e'] at e; injection e with e; injection e with e _; rw [← e]; exact ⟨i', l'⟩
  · rw [e'] at e; cases e

/-- The example cache: capacity 2, after adding 1, 2, 3 and finding 2. -/
def exOps : List (Op Nat) := [.add 1, .add 2, .add 3, .find 2]

def exC : Cache Nat := match run (Cache.new 2) exOps with
  | .ok (c, _) => c
  | _ => Cache.newDefault

theorem exC_reach : Reachable exC := by
  refine ⟨Cache.new 2, exOps, [.none, .none, .none, .found (some 2)], .inr ⟨2, rfl⟩, ?_⟩
  have h : ∃ c, run (Cache.new 2) exOps = .ok (c, [.none, .none, .none, .found (some 2)]) := by
    rcases run_refines exOps (Cache.new 2) (new_inv 2).1 (init_inv (.inr ⟨2, rfl⟩)).2 with ⟨c, os, e, _, _, a⟩ | ⟨_, a⟩
    · rw [(new_inv 2).2] at a
      have : (LRU.new 2).run exOps = .ok (⟨2, [2, 3], true, 1, [1]⟩, [.none, .none, .none, .found (some 2)]) := by
        decide +kernel
      rw [this] at a
      injection a with a; injection a with _ a
      exact ⟨c, by rw [e, a]⟩
    · rw [(new_inv 2).2] at a
      exact absurd a (by decide +kernel)
  obtain ⟨c, hc⟩ := h
  unfold exC
  rw [hc]

theorem exC_values : exC.values = [2, 3] := by decide +kernel

/-- **C20**: the size never exceeds the capacity. -/
theorem C20_capacity {c : Cache K} (h : Reachable c) : c.size ≤ c.maxElements := by
  have := h.inv.2
  simpa [Cache.size, Cache.values] using this

example : exC.size ≤ exC.maxElements := C20_capacity exC_reach

/-- What the observers of the model say about the abstract cache. -/
structure Observes (c : Cache K) (s : LRU K) : Prop where
  contains : ∀ k, c.contains k = true ↔ k ∈ s.keys
  values : c.values = s.keys
  size : c.size = s.keys.length
  empty : c.empty = true ↔ s.keys = []
  mostRecent : c.mostRecent = match s.keys.head? with | some k => .ok k | none => .ub
  leastRecent : c.leastRecent = match s.keys.getLast? with | some k => .ok k | none => .ub
  last : c.last = s.last
  clipped : c.clipped = s.clipped
  capacity : c.maxElements = s.cap
  discarded : c.log = s.discarded
  nodup : s.keys.Nodup
  iterators : ∀ k, k ∈ s.keys → ∃ i, c.map k = some i ∧ c.deref i = .ok k

theorem observes {c : Cache K} (h : Inv c) : Observes c (abs c) where
  contains k := by rw [h.weak.contains]; simp [abs]
  values := rfl
  size := by simp [Cache.size, abs, Cache.values]
  empty := by
    unfold Cache.empty Cache.size abs Cache.values
    simp
  mostRecent := by
    unfold Cache.mostRecent abs Cache.values
    cases c.list <;> rfl
  leastRecent := by
    unfold Cache.leastRecent abs Cache.values
    simp only [List.getLast?_map]
    cases c.list.getLast? <;> rfl
  last := rfl
  clipped := rfl
  capacity := rfl
  discarded := rfl
  nodup := h.keys
  iterators k hk := by
    obtain ⟨i, h1, h2⟩ := h.map_some hk
    exact ⟨i, h1, h.deref h2⟩

/-- **C21**: every history of calls behaves like the abstract recency list: same outputs, same observations, and it is
undefined exactly where the abstract cache is (an `operator[]` of an absent key at capacity 0, see C25). -/
theorem C21_refines (cap : Nat) (ops : List (Op K)) :
    (∃ c os s, run (Cache.new cap) ops = .ok (c, os) ∧ (LRU.new cap).run ops = .ok (s, os) ∧ Observes c s) ∨
    (run (Cache.new (K := K) cap) ops = .ub ∧ (LRU.new (K := K) cap).run ops = .ub) := by
  obtain ⟨i, l⟩ := init_inv (K := K) (.inr ⟨cap, rfl⟩)
  rcases run_refines ops _ i l with ⟨c, os, e, i', _, a⟩ | ⟨e, a⟩
  · rw [(new_inv cap).2] at a
    exact .inl ⟨c, os, abs c, e, a, observes i'⟩
  · rw [(new_inv cap).2] at a
    exact .inr ⟨e, a⟩

example : (LRU.new 2).run exOps = .ok (⟨2, [2, 3], true, 1, [1]⟩, [.none, .none, .none, .found (some 2)]) := by
  decide +kernel

/-- **C22**: `find(k)` reports whether `k` is cached; if so `k` becomes the most recent key and the others keep their
order; if not, nothing changes. -/
theorem C22_find {c : Cache K} (h : Reachable c) (k : K) :
    (k ∈ c.values → ∃ c' i, c.find (.val k) = .ok (c', some i) ∧ c'.deref i = .ok k ∧
      c'.values = k :: c.values.filter (· ≠ k) ∧ c'.mostRecent = .ok k ∧ c'.log = c.log ∧ c'.last = c.last ∧
      c'.clipped = c.clipped) ∧
    (k ∉ c.values → c.find (.val k) = .ok (c, none)) := by
  obtain ⟨i, _⟩ := h.inv
  constructor
  · intro hk
    obtain ⟨c', j, l, e, i', hl, a⟩ := (i.find (.val k) k rfl).1 hk
    refine ⟨c', j, e, i'.deref (by rw [hl]; exact List.mem_cons_self), congrArg LRU.keys a,
      by simp [Cache.mostRecent, hl], congrArg LRU.discarded a, congrArg LRU.last a, congrArg LRU.clipped a⟩
  · exact (i.find (.val k) k rfl).2

example : ∃ c' i, exC.find (.val 3) = .ok (c', some i) ∧ c'.values = [3, 2] := by
  obtain ⟨c', i, h1, _, h2, _⟩ := (C22_find exC_reach 3).1 (by rw [exC_values]; decide)
  rw [exC_values] at h2
  exact ⟨c', i, h1, h2⟩

/-- **C23**: on overflow exactly the least recent keys go, `on_discard` is called once for each, least recent first, and
`clipped()` counts them; `remove`, `clear` and `find` discard nothing. -/
theorem C23_eviction {c : Cache K} (h : Reachable c) :
    (∀ n, (c.setCapacity n).values = c.values.take n ∧
      (c.setCapacity n).log = c.log ++ (c.values.drop n).reverse ∧
      (c.setCapacity n).clipped = (c.values.drop n).length) ∧
    (∀ k, k ∉ c.values → ∃ c', c.add (.val k) = .ok c' ∧
      c'.values = (k :: c.values).take c.maxElements ∧
      c'.log = c.log ++ ((k :: c.values).drop c.maxElements).reverse ∧
      c'.clipped = ((k :: c.values).drop c.maxElements).length) ∧
    (∀ k, ∃ c', c.remove (.val k) = .ok c' ∧ c'.log = c.log) ∧
    (c.clear.log = c.log) := by
  obtain ⟨i, _⟩ := h.inv
  refine ⟨fun n => ?_, fun k hk => ?_, fun k => ?_, rfl⟩
  · have a : abs (c.setCapacity n) = ({ abs c with cap := n }).trim := by
      unfold Cache.setCapacity; rw [clip_abs]; rfl
    exact ⟨congrArg LRU.keys a, congrArg LRU.discarded a, congrArg LRU.clipped a⟩
  · obtain ⟨c', e, _, a⟩ := i.add k
    unfold LRU.add at a
    rw [if_neg (by exact hk)] at a
    exact ⟨c', e, congrArg LRU.keys a, congrArg LRU.discarded a, congrArg LRU.clipped a⟩
  · obtain ⟨c', e, _, a⟩ := i.remove k
    exact ⟨c', e, congrArg LRU.discarded a⟩

example : (exC.setCapacity 0).log = exC.log ++ [3, 2] := by
  have := ((C23_eviction exC_reach).1 0).2.1
  rw [exC_values] at this
  exact this

theorem recency_nodup (h : List K) : (recency h).Nodup := by
  induction h with
  | nil => exact List.nodup_nil
  | cons k h ih =>
    unfold recency
    exact List.nodup_cons.2 ⟨by simp, ih.filter _⟩

/-- `recency` lists exactly the keys of the history. -/
theorem mem_recency (h : List K) (x : K) : x ∈ recency h ↔ x ∈ h := by
  induction h with
  | nil => simp [recency]
  | cons k h ih =>
    unfold recency
    simp only [List.mem_cons, List.mem_filter, ih, ne_eq, decide_not, Bool.not_eq_true', decide_eq_false_iff_not]
    by_cases e : x = k <;> simp [e]

theorem take_step (R : List K) (hR : R.Nodup) (k : K) (m : Nat) :
    (k ∈ R.take (m + 1) → k :: (R.take (m + 1)).filter (· ≠ k) = (k :: R.filter (· ≠ k)).take (m + 1)) ∧
    (k ∉ R.take (m + 1) → (k :: R.take (m + 1)).take (m + 1) = (k :: R.filter (· ≠ k)).take (m + 1)) := by
  by_cases hk : k ∈ R
  · obtain ⟨A, B, rfl⟩ := List.append_of_mem hk
    rw [List.nodup_append] at hR
    obtain ⟨hA, hB, hAB⟩ := hR
    have hkA : k ∉ A := fun h' => hAB k h' k (by simp) rfl
    have hkB : k ∉ B := (List.nodup_cons.1 hB).1
    have hf : (A ++ k :: B).filter (· ≠ k) = A ++ B := by
      rw [List.filter_append, List.filter_cons_of_neg (by simp), LRU.filter_not_mem hkA, LRU.filter_not_mem hkB]
    by_cases hl : A.length ≤ m
    · have ht : (A ++ k :: B).take (m + 1) = A ++ k :: B.take (m - A.length) := by
        rw [List.take_append, List.take_of_length_le (by omega)]
        have : m + 1 - A.length = (m - A.length) + 1 := by omega
        rw [this, List.take_succ_cons]
      rw [ht, hf]
      constructor
      · intro _
        rw [List.filter_append, List.filter_cons_of_neg (by simp), LRU.filter_not_mem hkA,
          LRU.filter_not_mem (fun h' => hkB (List.mem_of_mem_take h')), List.take_succ_cons, List.take_append,
          List.take_of_length_le hl]
      · intro h'; exact absurd (by simp) h'
    · have ht : (A ++ k :: B).take (m + 1) = A.take (m + 1) := by
        rw [List.take_append_of_le_length (by omega)]
      rw [ht, hf]
      constructor
      · intro h'; exact absurd (List.mem_of_mem_take h') hkA
      · intro _
        rw [List.take_succ_cons, List.take_succ_cons, List.take_append_of_le_length (by omega), List.take_take]
        congr 2; omega
  · rw [LRU.filter_not_mem hk]
    constructor
    · intro h'; exact absurd (List.mem_of_mem_take h') hk
    · intro _
      rw [List.take_succ_cons, List.take_succ_cons, List.take_take]
      congr 2; omega

theorem spec_access_run (m : Nat) (ks : List K) : ∀ (s : LRU K) (H : List K), s.cap = m + 1 →
    s.keys = (recency H).take (m + 1) →
    ∃ s', s.run (ks.map Op.access) = .ok (s', ks.map Out.elem) ∧ s'.cap = m + 1 ∧
      s'.keys = (recency (ks.reverse ++ H)).take (m + 1) := by
  induction ks with
  | nil => intro s H h1 h2; exact ⟨s, rfl, h1, h2⟩
  | cons k ks ih =>
    intro s H h1 h2
    have hts := take_step (recency H) (recency_nodup H) k m
    have hstep : ∃ s1, s.step (.access k) = .ok (s1, .elem k) ∧ s1.cap = m + 1 ∧
        s1.keys = (recency (k :: H)).take (m + 1) := by
      by_cases hk : k ∈ s.keys
      · refine ⟨{ s.touch k with last := false }, ?_, h1, ?_⟩
        · unfold LRU.step; simp only; rw [if_pos hk]
        · show k :: s.keys.filter (· ≠ k) = _
          rw [h2] at hk ⊢
          exact hts.1 hk
      · refine ⟨s.add k, ?_, ?_, ?_⟩
        · unfold LRU.step; simp only; rw [if_neg hk, if_neg (by omega)]
        · unfold LRU.add; rw [if_neg hk]; exact h1
        · unfold LRU.add; rw [if_neg hk]
          show (k :: s.keys).take s.cap = _
          rw [h1]
          rw [h2] at hk ⊢
          exact hts.2 hk
    obtain ⟨s1, e1, c1, k1⟩ := hstep
    obtain ⟨s', e2, c2, k2⟩ := ih s1 (k :: H) c1 k1
    refine ⟨s', ?_, c2, ?_⟩
    · simp only [List.map_cons]
      unfold LRU.run
      rw [e1]
      simp only [Res.bind_ok, e2]
    · rw [k2]; simp

/-- **C24**: with capacity `cap ≥ 1` and a history `ks` of `operator[]` accesses (any repetitions), every access
returns its key, and the cache holds exactly the `cap` most recently accessed distinct keys, most recent first. -/
theorem C24_history (cap : Nat) (hcap : 1 ≤ cap) (ks : List K) :
    ∃ c, run (Cache.new cap) (ks.map Op.access) = .ok (c, ks.map Out.elem) ∧
      c.values = (recency ks.reverse).take cap := by
  obtain ⟨m, rfl⟩ : ∃ m, cap = m + 1 := ⟨cap - 1, by omega⟩
  obtain ⟨s', e, _, hk⟩ := spec_access_run m ks (LRU.new (m + 1)) [] rfl rfl
  rw [List.append_nil] at hk
  rcases C21_refines (m + 1) (ks.map Op.access) with ⟨c, os, s, e1, e2, ob⟩ | ⟨_, e2⟩
  · rw [e] at e2
    injection e2 with e2; injection e2 with e2 e3
    exact ⟨c, by rw [e1, e3], by rw [ob.values, ← e2, hk]⟩
  · rw [e] at e2; cases e2

example : recency [5, 3, 5, 7, 3] = [5, 3, 7] := by decide
example : ∃ c, run (Cache.new 2) (([3, 7, 5, 3, 5] : List Nat).map Op.access) = .ok (c, [3, 7, 5, 3, 5].map Out.elem) ∧
    c.values = [5, 3] := C24_history 2 (by decide) [3, 7, 5, 3, 5]

/-- **C25 (partial)**: `cache[k]` returns `k`, now the most recent element, whenever the capacity is at least 1.
At capacity 0 it dereferences a singular iterator: `C25_counterexample`. -/
theorem C25_access_partial {c : Cache K} (h : Reachable c) (hcap : c.maxElements ≠ 0) (k : K) :
    ∃ c' i, c.access (.val k) = .ok (c', i) ∧ c'.deref i = .ok k ∧ c'.mostRecent = .ok k ∧
      (c'.last = true ↔ k ∉ c.values) := by
  obtain ⟨i, l⟩ := h.inv
  obtain ⟨c', j, l', e, i', hl, a⟩ := (i.access l k).1 (.inr hcap)
  refine ⟨c', j, e, i'.deref (by rw [hl]; exact List.mem_cons_self), ?_, ?_⟩
  · unfold Cache.mostRecent; rw [hl]; rfl
  · unfold LRU.step at a
    simp only at a
    by_cases hk : k ∈ c.values
    · rw [if_pos (by exact hk)] at a
      injection a with a; injection a with a _
      have : c'.last = false := (congrArg LRU.last a).symm
      simp [this, hk]
    · rw [if_neg (by exact hk), if_neg (by exact hcap)] at a
      injection a with a; injection a with a _
      have : c'.last = true := by
        have := (congrArg LRU.last a).symm
        unfold LRU.add at this
        rw [if_neg (by exact hk)] at this
        exact this
      simp [this, hk]

example : ∃ c' i, exC.access (.val 9) = .ok (c', i) ∧ c'.deref i = .ok 9 := by
  obtain ⟨c', i, h1, h2, _⟩ := C25_access_partial exC_reach (by decide +kernel) 9
  exact ⟨c', i, h1, h2⟩

/-- C25 fails for every reachable cache of capacity 0 and every key. -/
theorem C25_counterexample {c : Cache K} (h : Reachable c) (hcap : c.maxElements = 0) (k : K) :
    c.access (.val k) = .ub := by
  obtain ⟨i, l⟩ := h.inv
  refine (i.access l k).2 ?_ hcap
  intro hk
  rw [hcap] at l
  have : c.values = [] := List.length_eq_zero_iff.1 (by omega)
  rw [this] at hk; cases hk

example : (Cache.new 0).access (.val 1) = .ub :=
  C25_counterexample ⟨Cache.new 0, [], [], .inr ⟨0, rfl⟩, rfl⟩ (congrArg LRU.cap (new_inv 0).2) 1

/-- Calls that never follow an iterator stored in the map. -/
def keyLevel : Op K → Bool
  | .add _ | .clear | .setCapacity _ | .clip => true
  | _ => false

theorem copy_values (c : Cache K) : c.copy.values = c.values := by
  unfold Cache.copy Cache.values
  simp only [List.map_map]
  have : (Prod.snd ∘ fun p : (Nat × K) × Nat => (c.next + p.2, p.1.2)) = (Prod.snd ∘ Prod.fst) := rfl
  rw [this, ← List.map_map, List.zipIdx_map_fst]

theorem WInv.copy {c : Cache K} (h : WInv c) : WInv c.copy where
  keys := by rw [copy_values]; exact h.keys
  mapKeys := by rw [copy_values]; exact h.mapKeys

theorem WInv.run {ops : List (Op K)} (hops : ∀ op ∈ ops, keyLevel op = true) : ∀ {c : Cache K}, WInv c →
    ∃ c' os, Cache.run c ops = .ok (c', os) ∧ WInv c' ∧ (abs c).run ops = .ok (abs c', os) := by
  induction ops with
  | nil => intro c h; exact ⟨c, [], rfl, h, rfl⟩
  | cons op ops ih =>
    intro c h
    have hstep : ∃ c1 o, Cache.step c op = .ok (c1, o) ∧ WInv c1 ∧ (abs c).step op = .ok (abs c1, o) := by
      have hop := hops op List.mem_cons_self
      cases op with
      | add k =>
        obtain ⟨c', e, i, a⟩ := h.add k
        refine ⟨c', .none, ?_, i, ?_⟩
        · simp only [Cache.step, e, Res.bind_ok]
        · simp only [LRU.step, a]
      | find k => cases hop
      | access k => cases hop
      | remove k => cases hop
      | clear => exact ⟨_, _, rfl, Inv.clear.weak, rfl⟩
      | setCapacity n =>
        refine ⟨_, _, rfl, WInv.clip ⟨h.keys, h.mapKeys⟩, ?_⟩
        unfold LRU.step Cache.setCapacity
        simp only
        rw [clip_abs]; rfl
      | clip =>
        refine ⟨_, _, rfl, h.clip, ?_⟩
        unfold LRU.step
        simp only
        rw [clip_abs]
    obtain ⟨c1, o, e, i, a⟩ := hstep
    obtain ⟨c2, os, e2, i2, a2⟩ := ih (fun op' h' => hops op' (List.mem_cons_of_mem _ h')) i
    refine ⟨c2, o :: os, ?_, i2, ?_⟩
    · unfold Cache.run; rw [e]; simp only [Res.bind_ok, e2]
    · unfold LRU.run; rw [a]; simp only [Res.bind_ok, a2]

/-- **C26 (partial)**: a copy shows the same contents, and histories of calls that do not follow stored iterators
(`add`, `clip`, `set_capacity`, `clear`) behave as specified on it.  The copy of an empty cache is fully usable.
Missing: `find`, `remove` and `operator[]` of any copied key are undefined: `C26_counterexample`. -/
theorem C26_copy_partial {c : Cache K} (h : Reachable c) :
    abs c.copy = { abs c with discarded := [] } ∧
    (∀ k, c.copy.contains k = c.contains k) ∧
    (∀ ops, (∀ op ∈ ops, keyLevel op = true) → ∃ c' os, run c.copy ops = .ok (c', os) ∧
      (abs c.copy).run ops = .ok (abs c', os)) ∧
    (c.values = [] → ∀ ops, (∃ c' os, run c.copy ops = .ok (c', os) ∧ (abs c.copy).run ops = .ok (abs c', os)) ∨
      (run c.copy ops = .ub ∧ (abs c.copy).run ops = .ub)) := by
  obtain ⟨i, _⟩ := h.inv
  refine ⟨?_, fun k => rfl, fun ops hops => ?_, fun he ops => ?_⟩
  · have hv := copy_values c
    unfold abs
    rw [hv]
    rfl
  · obtain ⟨c', os, e, _, a⟩ := i.weak.copy.run hops
    exact ⟨c', os, e, a⟩
  · have hl : c.list = [] := by
      unfold Cache.values at he; simpa using he
    have hi : Inv c.copy := by
      constructor
      · rw [copy_values]; exact i.keys
      · unfold Cache.copy; simp [hl]
      · intro k j
        have h1 : c.map k = none := i.map_none (by rw [he]; simp)
        unfold Cache.copy; simp [hl, h1]
      · unfold Cache.copy; simp [hl]
    rcases run_refines ops c.copy hi (by rw [copy_values, he]; simp) with ⟨c', os, e, _, _, a⟩ | hub
    · exact .inl ⟨c', os, e, a⟩
    · exact .inr hub

example : run exC.copy [.add 5, .setCapacity 1] = run exC.copy [.add 5, .setCapacity 1] ∧
    ∃ c' os, run exC.copy [.add 5, .setCapacity 1] = .ok (c', os) ∧
      (abs exC.copy).run [.add 5, .setCapacity 1] = .ok (abs c', os) :=
  ⟨rfl, (C26_copy_partial exC_reach).2.2.1 _ (by decide)⟩

theorem copy_stale {c : Cache K} (h : Inv c) {k : K} (hk : k ∈ c.values) :
    ∃ i, c.copy.map k = some i ∧ c.copy.list.find? (fun p => p.1 = i) = none := by
  obtain ⟨i, h1, h2⟩ := h.map_some hk
  refine ⟨i, h1, ?_⟩
  have := h.fresh _ h2
  rw [List.find?_eq_none]
  intro p hp
  unfold Cache.copy at hp
  obtain ⟨q, _, rfl⟩ := List.mem_map.1 hp
  simp at this ⊢
  omega

/-- C26 fails for every non-empty reachable cache: on its copy, `find`, `operator[]` and `remove` of any copied key use
iterators into the original's list. -/
theorem C26_counterexample {c : Cache K} (h : Reachable c) (k : K) (hk : k ∈ c.values) :
    c.copy.find (.val k) = .ub ∧ c.copy.access (.val k) = .ub ∧ c.copy.remove (.val k) = .ub := by
  obtain ⟨i, h1, h2⟩ := copy_stale h.inv.1 hk
  have hc : c.copy.contains k = true := by unfold Cache.contains; rw [h1]; rfl
  refine ⟨?_, ?_, ?_⟩
  · unfold Cache.find Cache.moveToFront
    simp only [Cache.readArg, Res.bind_ok, h1, h2, Res.bind_ub]
  · unfold Cache.access Cache.find Cache.moveToFront
    simp only [Cache.readArg, Res.bind_ok, hc, Bool.not_true, Bool.false_eq_true, if_false, h1, h2, Res.bind_ub]
  · unfold Cache.remove Cache.deref
    simp only [Cache.readArg, Res.bind_ok, h1, h2, Res.bind_ub]

example : exC.copy.find (.val 3) = .ub := (C26_counterexample exC_reach 3 (by rw [exC_values]; decide)).1

/-- **C27**: after a move the destination behaves like the source did under every later history, and the source is
empty, keeps its capacity and is fully usable. -/
theorem C27_move {c : Cache K} (h : Reachable c) (ops : List (Op K)) :
    abs c.move.1 = { abs c with discarded := [] } ∧ abs c.move.2 = { abs c with keys := [] } ∧
    ((∃ c' os, run c.move.1 ops = .ok (c', os) ∧ (abs c.move.1).run ops = .ok (abs c', os) ∧ Observes c' (abs c')) ∨
      (run c.move.1 ops = .ub ∧ (abs c.move.1).run ops = .ub)) ∧
    ((∃ c' os, run c.move.2 ops = .ok (c', os) ∧ (abs c.move.2).run ops = .ok (abs c', os) ∧ Observes c' (abs c')) ∨
      (run c.move.2 ops = .ub ∧ (abs c.move.2).run ops = .ub)) := by
  obtain ⟨i, l⟩ := h.inv
  have i1 : Inv c.move.1 := ⟨i.keys, i.ids, i.map, i.fresh⟩
  have i2 : Inv c.move.2 := Inv.clear (c := c)
  refine ⟨rfl, rfl, ?_, ?_⟩
  · rcases run_refines ops c.move.1 i1 l with ⟨c', os, e, i', _, a⟩ | hub
    · exact .inl ⟨c', os, e, a, observes i'⟩
    · exact .inr hub
  · rcases run_refines ops c.move.2 i2 (Nat.zero_le _) with ⟨c', os, e, i', _, a⟩ | hub
    · exact .inl ⟨c', os, e, a, observes i'⟩
    · exact .inr hub

example : abs exC.move.1 = { abs exC with discarded := [] } ∧ exC.move.1.values = [2, 3] ∧ exC.move.2.values = [] :=
  ⟨(C27_move exC_reach []).1, by decide +kernel, by decide +kernel⟩

/-- **C28 (partial)**: `remove(k)` of a value removes `k` if present and keeps the others in order; `find`,
`operator[]` and `add` also accept references into the cache.  Missing: `remove` with such a reference reads freed
memory, always (`C28_counterexample`). -/
theorem C28_remove_partial {c : Cache K} (h : Reachable c) :
    (∀ k, ∃ c', c.remove (.val k) = .ok c' ∧ c'.values = c.values.filter (· ≠ k) ∧
      (∀ x, c'.contains x = true ↔ c.contains x = true ∧ x ≠ k)) ∧
    (∀ i k, (i, k) ∈ c.list →
      (∃ c' j, c.find (.node i) = .ok (c', some j) ∧ c'.values = k :: c.values.filter (· ≠ k)) ∧
      (∃ c' j, c.access (.node i) = .ok (c', j) ∧ c'.values = k :: c.values.filter (· ≠ k)) ∧
      (∃ c', c.add (.node i) = .ok c' ∧ c'.values = c.values)) := by
  obtain ⟨i, _⟩ := h.inv
  refine ⟨fun k => ?_, fun j k hm => ?_⟩
  · obtain ⟨c', e, i', a⟩ := i.remove k
    have hv : c'.values = c.values.filter (· ≠ k) := congrArg LRU.keys a
    refine ⟨c', e, hv, fun x => ?_⟩
    rw [i'.weak.contains, i.weak.contains, hv]
    simp
  · have hk : k ∈ c.values := List.mem_map.2 ⟨_, hm, rfl⟩
    have hr : c.readArg (.node j) = .ok k := i.deref hm
    refine ⟨?_, ?_, ?_⟩
    · obtain ⟨c', j', l, e, _, _, a⟩ := (i.find (.node j) k hr).1 hk
      exact ⟨c', j', e, congrArg LRU.keys a⟩
    · obtain ⟨c', j', l, e, _, _, a⟩ := i.access_present (.node j) k hr hk
      exact ⟨c', j', e, congrArg LRU.keys a⟩
    · exact ⟨_, add_present i.weak _ hr hk, rfl⟩

example : ∃ c', exC.remove (.val 2) = .ok c' ∧ c'.values = [3] := by
  obtain ⟨c', h1, h2, _⟩ := (C28_remove_partial exC_reach).1 2
  rw [exC_values] at h2
  exact ⟨c', h1, h2⟩

/-- C28 fails for every element of every reachable cache: `remove` of a reference to it (e.g. `most_recent()`) reads the
freed node. -/
theorem C28_counterexample {c : Cache K} (h : Reachable c) (i : Nat) (k : K) (hm : (i, k) ∈ c.list) :
    c.remove (.node i) = .ub := by
  obtain ⟨hi, _⟩ := h.inv
  have hr : c.readArg (.node i) = .ok k := hi.deref hm
  unfold Cache.remove
  rw [hr]
  simp only [Res.bind_ok, (hi.map k i).2 hm, hi.deref hm]
  have : (c.list.eraseP (fun q => decide (q.1 = i))).find? (fun p => decide (p.1 = i)) = none := by
    rw [eraseP_eq hi.ids hi.keys hm, List.find?_eq_none]
    intro p hp
    obtain ⟨hp1, hp2⟩ := List.mem_filter.1 hp
    simp only [decide_eq_true_eq]
    intro e
    have h2 : c.map p.2 = some i := (hi.map p.2 i).2 (by rw [← e]; exact hp1)
    have h3 := hi.find? (i := i) (k := p.2) (by rw [← e]; exact hp1)
    rw [hi.find? hm] at h3
    injection h3 with h3; injection h3 with _ h3
    simp [h3] at hp2
  unfold Cache.readArg Cache.deref
  simp only [this, Res.bind_ub]

example : ∃ i, exC.remove (.node i) = .ub := by
  obtain ⟨i, _, h⟩ := exC_reach.inv.1.map_some (k := 2) (by rw [exC_values]; decide)
  exact ⟨i, C28_counterexample exC_reach i 2 h⟩

/-- **C29**: `last_operation()` after `add` and `remove`; `add` of a present key changes neither contents nor order. -/
theorem C29_last {c : Cache K} (h : Reachable c) (k : K) :
    (∃ c', c.add (.val k) = .ok c' ∧ (c'.last = true ↔ k ∉ c.values) ∧ (k ∈ c.values → c'.values = c.values)) ∧
    (∃ c', c.remove (.val k) = .ok c' ∧ (c'.last = true ↔ k ∈ c.values) ∧ (k ∉ c.values → c'.values = c.values)) := by
  obtain ⟨i, _⟩ := h.inv
  constructor
  · obtain ⟨c', e, _, a⟩ := i.add k
    refine ⟨c', e, ?_, fun hk => ?_⟩
    · have hl := congrArg LRU.last a
      unfold LRU.add at hl
      by_cases hk : k ∈ c.values
      · rw [if_pos (by exact hk)] at hl
        have : c'.last = false := hl
        simp [this, hk]
      · rw [if_neg (by exact hk)] at hl
        have : c'.last = true := hl
        simp [this, hk]
    · have hl := congrArg LRU.keys a
      unfold LRU.add at hl
      rw [if_pos (by exact hk)] at hl
      exact hl
  · obtain ⟨c', e, _, a⟩ := i.remove k
    refine ⟨c', e, ?_, fun hk => ?_⟩
    · have hl : c'.last = decide (k ∈ c.values) := congrArg LRU.last a
      rw [hl]; simp
    · have hl : c'.values = c.values.filter (· ≠ k) := congrArg LRU.keys a
      rw [hl, LRU.filter_not_mem hk]

example : ∃ c', exC.add (.val 2) = .ok c' ∧ (c'.last = true ↔ 2 ∉ exC.values) := by
  obtain ⟨c', h1, h2, _⟩ := (C29_last exC_reach 2).1
  exact ⟨c', h1, h2⟩

end Verif.Cache
