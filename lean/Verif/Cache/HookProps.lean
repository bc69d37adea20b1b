import Verif.Cache.Hook
import Verif.Cache.Props

/-! C140: overrides of `on_discard` that use the cache. -/

namespace Verif.Cache
open Spec
set_option linter.unusedSectionVars false
variable {K : Type} [DecidableEq K]

/-- A `clip` that finds nothing to discard. -/
def Idle (clip : Cache K → Run (Cache K)) : Prop :=
  ∀ c : Cache K, c.list.length ≤ c.maxElements → clip c = .ok { c with clipped := 0 }

theorem idle_clipH (hook : Hook K) {fuel : Nat} (h : 0 < fuel) : Idle (clipH hook fuel) := by
  intro c hc
  obtain ⟨n, rfl⟩ := Nat.exists_eq_succ_of_ne_zero (Nat.ne_of_gt h)
  unfold clipH clipLoopH
  rw [if_neg (by simpa using hc)]

theorem ext_deref {b : Nat × K} {d : Cache K} {j : Nat} {k : K} {l : List (Nat × K)} (h : d.list = (j, k) :: l) :
    (ext b d).deref j = .ok k := by
  unfold Cache.deref ext
  simp [h]

/-- The new key of `add`, before `clip`. -/
def pushed (d : Cache K) (k : K) : Cache K :=
  { d with list := (d.next, k) :: d.list, next := d.next + 1, map := fun k' => if k' = k then some d.next else d.map k' }

theorem Apart.push {b : Nat × K} {d : Cache K} (h : Apart b d) {k : K} (hk : k ∉ d.values) : Apart b (pushed d k) :=
  h.mk' (h.inv.push hk) (Nat.le_succ _) fun i hi => by
    have hi : i ∈ ((d.next, k) :: d.list).map Prod.fst := hi
    rw [List.map_cons, List.mem_cons] at hi
    exact hi.symm

theorem Apart.fields {b : Nat × K} {d : Cache K} (h : Apart b d) (n m : Nat) (f : Bool) :
    Apart b { d with maxElements := n, clipped := m, last := f } :=
  ⟨⟨h.inv.keys, h.inv.ids, h.inv.map, h.inv.fresh⟩, h.new, h.old⟩

theorem Apart.contains {b : Nat × K} {d : Cache K} (h : Apart b d) (k : K) : (ext b d).contains k = decide (k ∈ d.values) :=
  h.inv.weak.contains k

theorem Apart.add {clip : Cache K → Run (Cache K)} (hc : Idle clip) {b : Nat × K} {d : Cache K} (h : Apart b d) (a : HArg K)
    (hq : key b.2 a ∈ d.values ∨ d.values.length + 2 ≤ d.maxElements) :
    (key b.2 a ∈ d.values → addWith clip (ext b d) (a.arg b.1) = .ok (ext b { d with last := false })) ∧
    (key b.2 a ∉ d.values →
      addWith clip (ext b d) (a.arg b.1) = .ok (ext b { pushed d (key b.2 a) with clipped := 0, last := true })) := by
  unfold addWith
  rw [h.read a]
  simp only [Run.of_ok, Run.bind_ok, h.contains]
  constructor
  · intro hk
    rw [if_pos (by simpa using hk)]
    rfl
  · intro hk
    rw [if_neg (by simpa using hk)]
    have hp := h.push hk
    have hr : Cache.readArg { ext b d with list := (d.next, key b.2 a) :: (ext b d).list, next := d.next + 1 } (a.arg b.1) =
        .ok (key b.2 a) := by
      cases a with
      | val k => rfl
      | self => exact hp.read .self
    erw [hr]
    simp only [Run.of_ok, Run.bind_ok]
    erw [hc _ (by
      have := hq.resolve_left hk
      simp only [ext, List.length_cons, List.length_append, List.length_nil, Cache.values, List.length_map] at this ⊢
      omega)]
    rfl

theorem abs_pushed (d : Cache K) (k : K) (f : Bool) :
    abs ({ pushed d k with clipped := 0, last := f } : Cache K) = { abs d with keys := k :: d.values, clipped := 0, last := f } := rfl

theorem touch_front (s : LRU K) {k : K} {ks : List K} (h : s.keys = k :: ks) (hk : k ∉ ks) : s.touch k = s := by
  unfold LRU.touch
  rw [h, List.filter_cons_of_neg (by simp), LRU.filter_not_mem hk, ← h]

theorem hstep_quiet {clip : Cache K → Run (Cache K)} (hc : Idle clip) {b : Nat × K} {d : Cache K} (h : Apart b d) (op : HOp K)
    (hq : QuietOp (abs d) b.2 op) :
    ∃ d' o, hstep clip b.1 (ext b d) op = .ok (ext b d', o) ∧ Apart b d' ∧ abs d' = (abs d).call b.2 op := by
  cases op with
  | add a =>
    simp only [hstep]
    by_cases hk : key b.2 a ∈ d.values
    · rw [(h.add hc a hq).1 hk]
      refine ⟨_, _, rfl, h.fields _ _ _, ?_⟩
      simp only [LRU.call]
      rw [if_pos (by exact hk)]
      rfl
    · rw [(h.add hc a hq).2 hk]
      refine ⟨_, _, rfl, (h.push hk).fields _ _ _, ?_⟩
      simp only [LRU.call]
      rw [if_neg (by exact hk)]
      rfl
  | find a =>
    simp only [hstep, LRU.call]
    by_cases hk : key b.2 a ∈ d.values
    · obtain ⟨d', j, l, e, h', hl, ha⟩ := (h.find a).1 hk
      rw [e, if_pos (by exact hk)]
      simp only [Run.of_ok, Run.bind_ok, ext_deref hl]
      exact ⟨d', _, rfl, h', ha⟩
    · rw [(h.find a).2 hk, if_neg (by exact hk)]
      exact ⟨d, _, rfl, h, rfl⟩
  | access a =>
    simp only [hstep, LRU.call, accessWith]
    rw [h.read a]
    simp only [Run.of_ok, Run.bind_ok, h.contains]
    by_cases hk : key b.2 a ∈ d.values
    · rw [if_neg (by simpa using hk), if_pos (by exact hk), ext_last]
      obtain ⟨d', j, l, e, h', hl, ha⟩ := ((h.fields d.maxElements d.clipped false).find a).1 hk
      simp only [Run.bind_ok, e, Run.of_ok, ext_deref hl]
      exact ⟨d', _, rfl, h', ha⟩
    · rw [if_pos (by simpa using hk), if_neg (by exact hk), (h.add hc a hq).2 hk]
      simp only [Run.bind_ok]
      have hp := (h.push hk).fields d.maxElements 0 true
      obtain ⟨d', j, l, e, h', hl, ha⟩ := (hp.find a).1 (List.mem_cons_self)
      erw [e]
      simp only [Run.bind_ok, Run.of_ok, ext_deref hl]
      refine ⟨d', _, rfl, h', ?_⟩
      rw [ha]
      exact touch_front _ (ks := d.values) rfl hk
  | remove a =>
    obtain ⟨d', e, h', ha⟩ := h.remove a
    simp only [hstep, e, Run.of_ok, Run.bind_ok]
    exact ⟨d', _, rfl, h', ha⟩
  | clear => exact hq.elim
  | setCapacity n =>
    simp only [hstep]
    erw [hc _ (by
      simp only [QuietOp, abs, Cache.values, List.length_map] at hq
      simpa [ext] using hq)]
    exact ⟨{ d with maxElements := n, clipped := 0 }, _, rfl, h.fields _ _ _, rfl⟩
  | clip =>
    simp only [hstep]
    rw [hc _ (by
      simp only [QuietOp, abs, Cache.values, List.length_map] at hq
      simpa [ext] using hq)]
    exact ⟨{ d with clipped := 0 }, _, rfl, h.fields _ _ _, rfl⟩

theorem hsteps_quiet {clip : Cache K → Run (Cache K)} (hc : Idle clip) {b : Nat × K} (ops : List (HOp K)) : ∀ {d : Cache K}, Apart b d →
    QuietOps (abs d) b.2 ops →
    ∃ d', hsteps clip b.1 (ext b d) ops = .ok (ext b d') ∧ Apart b d' ∧ abs d' = (abs d).calls b.2 ops := by
  induction ops with
  | nil => intro d h _; exact ⟨d, rfl, h, rfl⟩
  | cons op ops ih =>
    intro d h hq
    obtain ⟨d1, o, e, h1, a1⟩ := hstep_quiet hc h op hq.1
    obtain ⟨d2, e2, h2, a2⟩ := ih h1 (a1 ▸ hq.2)
    refine ⟨d2, ?_, h2, ?_⟩
    · unfold hsteps
      rw [e]
      exact e2
    · rw [a2, a1]
      rfl

theorem touch_length {s : LRU K} {k : K} (hk : k ∈ s.keys) : (s.touch k).keys.length ≤ s.keys.length := by
  unfold LRU.touch
  have : (s.keys.filter (· ≠ k)).length < s.keys.length := List.length_filter_lt_length_iff_exists.2 ⟨k, hk, by simp⟩
  simp only [List.length_cons]
  omega

theorem quiet_length (x : K) (ops : List (HOp K)) : ∀ {s : LRU K}, QuietOps s x ops →
    (s.keys.length + 1 ≤ s.cap → (s.calls x ops).keys.length + 1 ≤ (s.calls x ops).cap) ∧
    ((s.calls x ops).keys.length + 1 ≤ (s.calls x ops).cap ∨ (s.calls x ops).keys.length ≤ s.keys.length) := by
  induction ops with
  | nil => intro s _; exact ⟨id, .inr (Nat.le_refl _)⟩
  | cons op ops ih =>
    intro s hq
    have h1 : (s.keys.length + 1 ≤ s.cap → (s.call x op).keys.length + 1 ≤ (s.call x op).cap) ∧
        ((s.call x op).keys.length + 1 ≤ (s.call x op).cap ∨ (s.call x op).keys.length ≤ s.keys.length) := by
      have ho := hq.1
      cases op with
      | add a =>
        simp only [LRU.call, QuietOp] at ho ⊢
        split
        · exact ⟨id, .inr (Nat.le_refl _)⟩
        · next hk =>
          have := ho.resolve_left hk
          simp only [List.length_cons]
          omega
      | access a =>
        simp only [LRU.call, QuietOp] at ho ⊢
        split
        · next hk =>
          have := touch_length hk
          have hcap : (s.touch (key x a)).cap = s.cap := rfl
          simp only [hcap]
          omega
        · next hk =>
          have := ho.resolve_left hk
          simp only [List.length_cons]
          omega
      | find a =>
        simp only [LRU.call]
        split
        · next hk =>
          have := touch_length hk
          have hcap : (s.touch (key x a)).cap = s.cap := rfl
          simp only [hcap]
          omega
        · exact ⟨id, .inr (Nat.le_refl _)⟩
      | remove a =>
        simp only [LRU.call]
        have := List.length_filter_le (· ≠ key x a) s.keys
        constructor
        · intro h; exact Nat.le_trans (Nat.succ_le_succ this) h
        · exact .inr this
      | clear => exact ho.elim
      | setCapacity n =>
        simp only [LRU.call, QuietOp] at ho ⊢
        exact ⟨fun _ => ho, .inl ho⟩
      | clip =>
        simp only [LRU.call, QuietOp] at ho ⊢
        exact ⟨id, .inl ho⟩
    have h2 := ih hq.2
    have e : s.calls x (op :: ops) = (s.call x op).calls x ops := rfl
    rw [e]
    refine ⟨fun h => h2.1 (h1.1 h), ?_⟩
    rcases h1.2 with h | h
    · exact .inl (h2.1 h)
    · rcases h2.2 with h' | h'
      · exact .inl h'
      · exact .inr (Nat.le_trans h' h)

theorem Inv.cut {c : Cache K} (h : Inv c) {l : List (Nat × K)} {b : Nat × K} (hl : c.list = l ++ [b]) (log : List K) (m : Nat) :
    Apart b { c with map := fun k => if k = b.2 then none else c.map k, list := l, log := log, clipped := m } := by
  have hk := h.keys
  have hi := h.ids
  unfold Cache.values at hk
  rw [hl, List.map_append, List.nodup_append] at hk hi
  have hb : b.1 ∉ l.map Prod.fst := fun hm => hi.2.2 _ hm b.1 (by simp) rfl
  have hb2 : b.2 ∉ l.map Prod.snd := fun hm => hk.2.2 _ hm b.2 (by simp) rfl
  refine ⟨⟨hk.1, hi.1, fun k i => ?_, fun p hp => h.fresh p (by rw [hl]; simp [hp])⟩, hb, h.fresh b (by rw [hl]; simp)⟩
  show (if k = b.2 then none else c.map k) = some i ↔ (i, k) ∈ l
  by_cases e : k = b.2
  · subst e
    simp only [if_true]
    exact ⟨fun h => (by cases h), fun h => absurd (List.mem_map.2 ⟨_, h, rfl⟩) hb2⟩
  · rw [if_neg e, h.map, hl, List.mem_append, List.mem_singleton]
    exact ⟨fun h => h.resolve_right fun e' => e (congrArg Prod.snd e'), .inl⟩

theorem clipLoop_quiet {hook : Hook K} (hq : Quiet hook) (m : Nat) : ∀ {c : Cache K}, Inv c → c.list.length ≤ m → ∀ n, m < n →
    ∃ c', clipLoopH hook n c = .ok c' ∧ Inv c' ∧ Trims hook (abs c) (abs c') ∧ c'.list.length ≤ c'.maxElements := by
  induction m with
  | zero =>
    intro c h hl n hn
    obtain ⟨n, rfl⟩ := Nat.exists_eq_succ_of_ne_zero (Nat.ne_of_gt hn)
    unfold clipLoopH
    rw [if_neg (by omega)]
    exact ⟨c, rfl, h, .done (by simp [abs, Cache.values]; omega), by omega⟩
  | succ m ih =>
    intro c h hl n hn
    obtain ⟨n, rfl⟩ := Nat.exists_eq_succ_of_ne_zero (Nat.ne_of_gt (Nat.lt_of_le_of_lt (Nat.zero_le _) hn))
    have hnm : m < n := by omega
    unfold clipLoopH
    by_cases hover : c.list.length > c.maxElements
    · rw [if_pos hover]
      cases hg : c.list.getLast? with
      | none =>
        rw [List.getLast?_eq_none_iff] at hg
        rw [hg] at hover
        simp at hover
      | some b =>
        obtain ⟨l, hlb⟩ := List.getLast?_eq_some_iff.1 hg
        have hcut := h.cut hlb (c.log ++ [b.2]) c.clipped
        have hk : (abs c).keys = l.map Prod.snd ++ [b.2] := by simp [abs, Cache.values, hlb]
        have hov : (abs c).cap < (abs c).keys.length := by simpa [abs, Cache.values] using hover
        have hqo := hq { abs c with discarded := c.log ++ [b.2] } (l.map Prod.snd) b.2 hk h.keys hov
        have hidle : Idle (fun c : Cache K => clipLoopH hook n { c with clipped := 0 }) := idle_clipH hook (by omega)
        obtain ⟨d', e, h', ha⟩ := hsteps_quiet hidle _ hcut hqo
        have hlen := (quiet_length _ _ hqo).2
        have hext : ext b { c with map := fun k => if k = b.2 then none else c.map k, list := l, log := c.log ++ [b.2], clipped := c.clipped } =
            { c with map := fun k => if k = b.2 then none else c.map k, log := c.log ++ [b.2] } := by
          unfold ext
          rw [hlb]
        rw [hext] at e
        have e' : hsteps (fun c => clipLoopH hook n { c with clipped := 0 }) b.1
            { c with map := fun k => if k = b.2 then none else c.map k, log := c.log ++ [b.2] }
            (hook (abs { c with map := fun k => if k = b.2 then none else c.map k, log := c.log ++ [b.2] }) b.2) = .ok (ext b d') := e
        simp only [e', Run.bind_ok]
        have hdrop : (ext b d').list.dropLast = d'.list := by simp [ext]
        have hne : ∃ p q, (ext b d').list = p :: q := by
          cases hd : d'.list with
          | nil => exact ⟨b, [], by simp [ext, hd]⟩
          | cons p q => exact ⟨p, q ++ [b], by simp [ext, hd]⟩
        obtain ⟨p, q, hpq⟩ := hne
        have hgoal : (match (ext b d').list with
            | [] => Run.ub
            | _ :: _ => clipLoopH hook n { ext b d' with list := (ext b d').list.dropLast, clipped := (ext b d').clipped + 1 }) =
            clipLoopH hook n { d' with clipped := d'.clipped + 1 } := by
          rw [hdrop]
          split
          · next h0 => rw [hpq] at h0; cases h0
          · rfl
        have hinv : Inv { d' with clipped := d'.clipped + 1 } := (h'.fields d'.maxElements (d'.clipped + 1) d'.last).inv
        have key : ∃ c', clipLoopH hook n { d' with clipped := d'.clipped + 1 } = .ok c' ∧ Inv c' ∧
            Trims hook (abs { d' with clipped := d'.clipped + 1 }) (abs c') ∧ c'.list.length ≤ c'.maxElements := by
          by_cases hov' : d'.list.length ≤ d'.maxElements
          · obtain ⟨k, rfl⟩ := Nat.exists_eq_succ_of_ne_zero (show n ≠ 0 by omega)
            unfold clipLoopH
            rw [if_neg (by simpa using hov')]
            exact ⟨_, rfl, hinv, .done (by simpa [abs, Cache.values] using hov'), hov'⟩
          · refine ih hinv ?_ n hnm
            have hla : (abs d').keys.length = d'.list.length := by simp [abs, Cache.values]
            have hca : (abs d').cap = d'.maxElements := rfl
            have e0 : LRU.calls { abs c with discarded := c.log ++ [b.2], keys := l.map Prod.snd } b.2
              (hook { abs c with discarded := c.log ++ [b.2] } b.2) = abs d' := ha.symm
            rw [e0, hla, hca] at hlen
            simp only [List.length_map] at hlen
            rw [hlb] at hl
            simp only [List.length_append, List.length_cons, List.length_nil] at hl
            simp only
            omega
        obtain ⟨c', e1, i1, t1, l1⟩ := key
        refine ⟨c', ?_, i1, .round hk hov ?_, l1⟩
        · exact hgoal.trans e1
        · have e0 : LRU.calls { abs c with discarded := c.log ++ [b.2], keys := l.map Prod.snd } b.2
              (hook { abs c with discarded := c.log ++ [b.2] } b.2) = abs d' := ha.symm
          show Trims hook _ _
          have e2 : abs { d' with clipped := d'.clipped + 1 } = { abs d' with clipped := (abs d').clipped + 1 } := rfl
          rw [e2, ← e0] at t1
          exact t1
    · rw [if_neg hover]
      exact ⟨c, rfl, h, .done (by simp [abs, Cache.values]; omega), by omega⟩

theorem clipH_quiet {hook : Hook K} (hq : Quiet hook) {c : Cache K} (h : Inv c) {fuel : Nat} (hf : c.list.length < fuel) :
    ∃ c', clipH hook fuel c = .ok c' ∧ Inv c' ∧ Trims hook { abs c with clipped := 0 } (abs c') ∧ c'.list.length ≤ c'.maxElements :=
  clipLoop_quiet hq _ (c := { c with clipped := 0 }) ⟨h.keys, h.ids, h.map, h.fresh⟩ (Nat.le_refl _) fuel hf

theorem addH_quiet {hook : Hook K} (hq : Quiet hook) {c : Cache K} (h : Inv c) {fuel : Nat} (hf : c.list.length + 1 < fuel) (k : K) :
    (k ∈ c.values → addWith (clipH hook fuel) c (.val k) = .ok { c with last := false }) ∧
    (k ∉ c.values → ∃ c', addWith (clipH hook fuel) c (.val k) = .ok { c' with last := true } ∧ Inv c' ∧
      Trims hook { abs c with keys := k :: c.values, clipped := 0 } (abs c') ∧ c'.list.length ≤ c'.maxElements) := by
  unfold addWith
  simp only [Cache.readArg, Run.of_ok, Run.bind_ok, h.weak.contains]
  constructor
  · intro hk
    rw [if_pos (by simpa using hk)]
  · intro hk
    rw [if_neg (by simpa using hk)]
    obtain ⟨c', e, i, t, l⟩ := clipH_quiet hq (h.push hk) (fuel := fuel) (by simpa using hf)
    simp only [e, Run.bind_ok]
    exact ⟨c', rfl, i, t, l⟩

theorem stepH_quiet {hook : Hook K} (hq : Quiet hook) {c : Cache K} (h : Inv c) (hl : c.list.length ≤ c.maxElements) {fuel : Nat}
    (hf : c.list.length + 1 < fuel) (op : Op K) :
    (∃ c' o, stepH hook fuel c op = .ok (c', o) ∧ Does hook (abs c) op (abs c') (some o) ∧ Inv c' ∧ c'.list.length ≤ c'.maxElements) ∨
    (stepH hook fuel c op = .ub ∧ ∃ s, Does hook (abs c) op s none) := by
  have htouch : ∀ {c c' : Cache K} {k : K}, k ∈ c.values → abs c' = (abs c).touch k → c.list.length ≤ c.maxElements →
      c'.list.length ≤ c'.maxElements := by
    intro c c' k hk ha hl
    have h1 := touch_length (s := abs c) hk
    rw [← ha] at h1
    have h2 : c'.maxElements = c.maxElements := congrArg LRU.cap ha
    simp only [abs, Cache.values, List.length_map] at h1
    omega
  unfold stepH
  cases op with
  | add k =>
    simp only [Op.outside, hstep, HArg.arg]
    by_cases hk : k ∈ c.values
    · rw [(addH_quiet hq h hf k).1 hk]
      exact .inl ⟨_, _, rfl, .addOld hk, h.last false, hl⟩
    · obtain ⟨c', e, i, t, l⟩ := (addH_quiet hq h hf k).2 hk
      rw [e]
      exact .inl ⟨_, _, rfl, .addNew hk t, i.last true, l⟩
  | find k =>
    simp only [Op.outside, hstep, HArg.arg]
    by_cases hk : k ∈ c.values
    · obtain ⟨c', j, l, e, i, hcl, ha⟩ := (h.find (.val k) k rfl).1 hk
      rw [e]
      simp only [Run.of_ok, Run.bind_ok, i.deref (k := k) (i := j) (by rw [hcl]; exact List.mem_cons_self)]
      refine .inl ⟨_, _, rfl, ?_, i, htouch hk ha hl⟩
      rw [ha]
      exact .findOld hk
    · rw [(h.find (.val k) k rfl).2 hk]
      exact .inl ⟨_, _, rfl, .findNew hk, h, hl⟩
  | access k =>
    simp only [Op.outside, hstep, HArg.arg, accessWith, Cache.readArg, Run.of_ok, Run.bind_ok, h.weak.contains]
    by_cases hk : k ∈ c.values
    · rw [if_neg (by simpa using hk)]
      obtain ⟨c', j, l, e, i, hcl, ha⟩ := ((h.last false).find (.val k) k rfl).1 hk
      simp only [Run.bind_ok, e, Run.of_ok, i.deref (k := k) (i := j) (by rw [hcl]; exact List.mem_cons_self)]
      refine .inl ⟨_, _, rfl, ?_, i, htouch (c := { c with last := false }) hk ha hl⟩
      rw [ha]
      exact .accessOld hk
    · rw [if_pos (by simpa using hk)]
      obtain ⟨c1, e1, i1, t, l1⟩ := (addH_quiet hq h hf k).2 hk
      simp only [e1, Run.bind_ok]
      by_cases hk1 : k ∈ c1.values
      · obtain ⟨c', j, l, e, i, hcl, ha⟩ := ((i1.last true).find (.val k) k rfl).1 hk1
        simp only [Run.bind_ok, e, Run.of_ok, i.deref (k := k) (i := j) (by rw [hcl]; exact List.mem_cons_self)]
        refine .inl ⟨_, _, rfl, ?_, i, htouch (c := { c1 with last := true }) hk1 ha l1⟩
        rw [ha]
        exact .accessNew hk t hk1
      · rw [((i1.last true).find (.val k) k rfl).2 hk1]
        exact .inr ⟨rfl, _, .accessGone hk t hk1⟩
  | remove k =>
    obtain ⟨c', e, i, ha⟩ := h.remove k
    simp only [Op.outside, hstep, HArg.arg, e, Run.of_ok, Run.bind_ok]
    refine .inl ⟨_, _, rfl, ?_, i, ?_⟩
    · rw [ha]
      exact .remove
    · have h1 : c'.values = c.values.filter (· ≠ k) := congrArg LRU.keys ha
      have h2 : c'.maxElements = c.maxElements := congrArg LRU.cap ha
      have h3 := List.length_filter_le (· ≠ k) c.values
      rw [← h1] at h3
      simp only [Cache.values, List.length_map] at h3
      omega
  | clear => exact .inl ⟨_, _, rfl, .clear, Inv.clear, Nat.zero_le _⟩
  | setCapacity n =>
    obtain ⟨c', e, i, t, l⟩ := clipH_quiet hq (h.setMax n) (fuel := fuel) (by simp only; omega)
    simp only [Op.outside, hstep, e, Run.bind_ok]
    exact .inl ⟨_, _, rfl, .setCapacity t, i, l⟩
  | clip =>
    obtain ⟨c', e, i, t, l⟩ := clipH_quiet hq h (fuel := fuel) (by omega)
    simp only [Op.outside, hstep, e, Run.bind_ok]
    exact .inl ⟨_, _, rfl, .clip t, i, l⟩

/-! ### More fuel changes nothing -/

/-- The same result, unless the fuel was used up. -/
def Run.Le {β : Type} (x y : Run β) : Prop := x = .long ∨ x = y

theorem Run.Le.rfl' {β : Type} (x : Run β) : Run.Le x x := .inr rfl

theorem Run.Le.bind {β γ : Type} {x y : Run β} (h : Run.Le x y) {f g : β → Run γ} (hf : ∀ b, Run.Le (f b) (g b)) :
    Run.Le (x >>= f) (y >>= g) := by
  rcases h with rfl | rfl
  · exact .inl rfl
  · cases x with
    | ok b => exact hf b
    | ub => exact .inr rfl
    | long => exact .inl rfl

theorem addWith_le {clip clip' : Cache K → Run (Cache K)} (h : ∀ c, Run.Le (clip c) (clip' c)) (c : Cache K) (a : Arg K) :
    Run.Le (addWith clip c a) (addWith clip' c a) := by
  unfold addWith
  refine Run.Le.bind (.rfl' _) fun k => ?_
  split
  · exact .rfl' _
  · exact Run.Le.bind (.rfl' _) fun k => Run.Le.bind (h _) fun _ => .rfl' _

theorem hstep_le {clip clip' : Cache K → Run (Cache K)} (h : ∀ c, Run.Le (clip c) (clip' c)) (b : Nat) (c : Cache K) (op : HOp K) :
    Run.Le (hstep clip b c op) (hstep clip' b c op) := by
  cases op with
  | add a => exact Run.Le.bind (addWith_le h c _) fun _ => .rfl' _
  | find a => exact .rfl' _
  | access a =>
    simp only [hstep, accessWith]
    refine Run.Le.bind (.rfl' _) fun k => Run.Le.bind ?_ fun _ => .rfl' _
    split
    · exact addWith_le h c _
    · exact .rfl' _
  | remove a => exact .rfl' _
  | clear => exact .rfl' _
  | setCapacity n => exact Run.Le.bind (h _) fun _ => .rfl' _
  | clip => exact Run.Le.bind (h _) fun _ => .rfl' _

theorem hsteps_le {clip clip' : Cache K → Run (Cache K)} (h : ∀ c, Run.Le (clip c) (clip' c)) (b : Nat) (ops : List (HOp K)) :
    ∀ c : Cache K, Run.Le (hsteps clip b c ops) (hsteps clip' b c ops) := by
  induction ops with
  | nil => exact fun _ => .rfl' _
  | cons op ops ih => exact fun c => Run.Le.bind (hstep_le h b c op) fun p => ih p.1

theorem clipLoop_le (hook : Hook K) (n : Nat) : ∀ c : Cache K, Run.Le (clipLoopH hook n c) (clipLoopH hook (n + 1) c) := by
  induction n with
  | zero => exact fun _ => .inl rfl
  | succ n ih =>
    intro c
    rw [clipLoopH, clipLoopH]
    split
    · cases c.list.getLast? with
      | none => exact .rfl' _
      | some b =>
        refine Run.Le.bind (hsteps_le (fun c => ih _) _ _ _) fun c' => ?_
        cases c'.list with
        | nil => exact .rfl' _
        | cons p q => exact ih _
    · exact .rfl' _

theorem Run.Le.trans {β : Type} {x y z : Run β} (h : Run.Le x y) (h' : Run.Le y z) : Run.Le x z := by
  rcases h with rfl | rfl
  · exact .inl rfl
  · exact h'

theorem clipH_le (hook : Hook K) {n m : Nat} (h : n ≤ m) (c : Cache K) : Run.Le (clipH hook n c) (clipH hook m c) := by
  induction h with
  | refl => exact .rfl' _
  | step _ ih => exact ih.trans (clipLoop_le hook _ _)

theorem runH_le (hook : Hook K) {n m : Nat} (h : n ≤ m) (ops : List (Op K)) : ∀ c : Cache K,
    Run.Le (runH hook n c ops) (runH hook m c ops) := by
  induction ops with
  | nil => exact fun _ => .rfl' _
  | cons op ops ih =>
    exact fun c => Run.Le.bind (hstep_le (clipH_le hook h) _ _ _) fun p => Run.Le.bind (ih p.1) fun _ => .rfl' _

/-! ### C140 -/

namespace Spec

/-- What a history of calls from outside does. -/
inductive DoesAll (hook : Hook K) : LRU K → List (Op K) → LRU K → List (Out K) → Prop
  | nil {s : LRU K} : DoesAll hook s [] s []
  | cons {s t u : LRU K} {op : Op K} {ops : List (Op K)} {o : Out K} {os : List (Out K)} :
      Does hook s op t (some o) → DoesAll hook t ops u os → DoesAll hook s (op :: ops) u (o :: os)

/-- A history of calls that ends with an `operator[]` without result. -/
inductive Fails (hook : Hook K) : LRU K → List (Op K) → Prop
  | now {s t : LRU K} {op : Op K} {ops : List (Op K)} : Does hook s op t none → Fails hook s (op :: ops)
  | later {s t : LRU K} {op : Op K} {ops : List (Op K)} {o : Out K} : Does hook s op t (some o) → Fails hook t ops →
      Fails hook s (op :: ops)

end Spec

theorem runH_quiet {hook : Hook K} (hq : Quiet hook) (ops : List (Op K)) : ∀ {c : Cache K}, Inv c → c.list.length ≤ c.maxElements →
    ∃ fuel, (∃ c' os, runH hook fuel c ops = .ok (c', os) ∧ DoesAll hook (abs c) ops (abs c') os ∧ Inv c') ∨
      (runH hook fuel c ops = .ub ∧ Fails hook (abs c) ops) := by
  induction ops with
  | nil => exact fun {c} h _ => ⟨0, .inl ⟨c, [], rfl, .nil, h⟩⟩
  | cons op ops ih =>
    intro c h hl
    have hs := stepH_quiet hq h hl (fuel := c.list.length + 2) (by omega) op
    rcases hs with ⟨c1, o, e, hd, h1, hl1⟩ | ⟨e, s, hd⟩
    · obtain ⟨f, hf⟩ := ih h1 hl1
      have hle1 := hstep_le (clipH_le hook (Nat.le_max_left (c.list.length + 2) f)) 0 c op.outside
      have e1 : stepH hook (max (c.list.length + 2) f) c op = .ok (c1, o) := by
        unfold stepH at e
        rw [e] at hle1
        rcases hle1 with h | h
        · cases h
        · exact h.symm
      have hle2 := runH_le hook (Nat.le_max_right (c.list.length + 2) f) ops c1
      refine ⟨max (c.list.length + 2) f, ?_⟩
      simp only [runH, e1, Run.bind_ok]
      rcases hf with ⟨c', os, e2, hd2, h2⟩ | ⟨e2, hd2⟩
      · rw [e2] at hle2
        rcases hle2 with hh | hh
        · cases hh
        · rw [← hh]
          exact .inl ⟨c', o :: os, rfl, .cons hd hd2, h2⟩
      · rw [e2] at hle2
        rcases hle2 with hh | hh
        · cases hh
        · rw [← hh]
          exact .inr ⟨rfl, .later hd hd2⟩
    · refine ⟨c.list.length + 2, .inr ⟨?_, .now hd⟩⟩
      simp only [runH, e, Run.bind_ub]

/-- C140 in full: whatever the override of `on_discard` calls, every history of calls comes to an end, is defined and leaves a
coherent cache (but for `operator[]` without capacity, C25). -/
def C140_statement (K : Type) [DecidableEq K] : Prop :=
  ∀ (hook : Hook K) (cap : Nat) (ops : List (Op K)), (∀ k, Op.access k ∉ ops) →
    ∃ fuel c os, runH hook fuel (Cache.new cap) ops = .ok (c, os) ∧ ∀ k, c.contains k = true ↔ k ∈ c.values

/-- C140, the part that holds: if the override never makes the cache discard while it is discarding, and does not clear it, then
every history of calls ends and does what the specification says: each discarded key is reported once, and what the override
does counts.  It is undefined only for an `operator[]` whose key is gone again after it was added.  Missing: other overrides. -/
theorem C140_quiet_partial {hook : Hook K} (hq : Quiet hook) (cap : Nat) (ops : List (Op K)) :
    ∃ fuel, (∃ c os s, runH hook fuel (Cache.new cap) ops = .ok (c, os) ∧ DoesAll hook (LRU.new cap) ops s os ∧ Observes c s) ∨
      (runH hook fuel (Cache.new cap) ops = .ub ∧ Fails hook (LRU.new cap) ops) := by
  obtain ⟨i, l⟩ := init_inv (K := K) (.inr ⟨cap, rfl⟩)
  obtain ⟨fuel, h⟩ := runH_quiet hq ops i (by simpa [Cache.values] using l)
  rw [(new_inv cap).2] at h
  refine ⟨fuel, ?_⟩
  rcases h with ⟨c, os, e, hd, hi⟩ | ⟨e, hd⟩
  · exact .inl ⟨c, os, _, e, hd, observes hi⟩
  · exact .inr ⟨e, hd⟩

/-- The specification leaves no choice. -/
theorem trims_unique {hook : Hook K} {s t : LRU K} (h : Trims hook s t) : ∀ {u : LRU K}, Trims hook s u → t = u := by
  induction h with
  | done hl =>
    intro u hu
    cases hu with
    | done => rfl
    | round _ hov => omega
  | round hk hov _ ih =>
    intro u hu
    cases hu with
    | done hl => omega
    | round hk' hov' hu' =>
      rw [hk] at hk'
      obtain ⟨h1, h2⟩ := List.append_inj' hk' rfl
      cases h1
      cases h2
      exact ih hu'

/-- C140: the specification of `C140_quiet_partial` determines the results. -/
theorem C140_unique {hook : Hook K} {s t u : LRU K} {op : Op K} {o o' : Option (Out K)} (h : Does hook s op t o) (h' : Does hook s op u o') :
    t = u ∧ o = o' := by
  have hu := fun (a b c : LRU K) (h1 : Trims hook a b) (h2 : Trims hook a c) => trims_unique h1 h2
  cases h <;> cases h' <;> grind

/-- An override that keeps one key alive: whenever something is discarded it looks up `k`. -/
def keep (k : K) : Hook K := fun _ _ => [.find (.val k)]

/-- An override that makes room for the discarded key and puts it back. -/
def grow : Hook K := fun s _ => [.setCapacity (s.keys.length + 1), .add .self]

theorem keep_quiet (k : K) : Quiet (keep k) := fun _ _ _ _ _ _ => ⟨trivial, trivial⟩

theorem grow_quiet : Quiet (grow : Hook K) := by
  intro s ks x hk _ _
  refine ⟨?_, .inr ?_, trivial⟩
  · simp only [QuietOp, hk, List.length_append, List.length_cons, List.length_nil]
    omega
  · simp only [LRU.call, hk, List.length_append, List.length_cons, List.length_nil]
    omega

/-- The results, the keys, the capacity and the discarded keys of a history from an empty cache. -/
def dumpH {K : Type} [DecidableEq K] (r : Run (Cache K × List (Out K))) : Option (List (Out K) × List K × Nat × List K) :=
  match r with
  | .ok (c, os) => some (os, c.values, c.maxElements, c.log)
  | _ => none

example : dumpH (runH (keep 2) 9 (Cache.new 3) [.add 1, .add 2, .add 3, .add 4, .add 5, .add 6]) =
    some ([.none, .none, .none, .none, .none, .none], [2, 6, 5], 3, [1, 3, 4]) := by decide +kernel

example : dumpH (runH grow 9 (Cache.new 2) [.add 1, .add 2, .add 3, .find 1]) =
    some ([.none, .none, .none, .found (some 1)], [1, 3, 2], 4, [1]) := by decide +kernel

/-! ### Overrides that do harm -/

def Run.isUb {β : Type} : Run β → Bool
  | .ub => true
  | _ => false

theorem Run.ub_of {β : Type} {r : Run β} (h : r.isUb = true) : r = .ub := by
  cases r with
  | ub => rfl
  | ok => cases h
  | long => cases h

theorem never_ok {hook : Hook K} {c : Cache K} {ops : List (Op K)} {fuel : Nat} (h : runH hook fuel c ops = .ub) (fuel' : Nat) :
    ∀ r, runH hook fuel' c ops ≠ .ok r := by
  intro r e
  rcases Nat.le_total fuel fuel' with hle | hle
  · rcases runH_le hook hle ops c with h' | h'
    · rw [h] at h'
      cases h'
    · rw [h, e] at h'
      cases h'
  · rcases runH_le hook hle ops c with h' | h'
    · rw [e] at h'
      cases h'
    · rw [h, e] at h'
      cases h'

/-- C140 fails: an override that calls `clear()`; after it `clip` removes the last node of an empty list. -/
theorem C140_counterexample : ¬ C140_statement Nat := by
  intro h
  obtain ⟨fuel, c, os, e, _⟩ := h (fun _ _ => [.clear]) 1 [.add 1, .add 2] (by simp)
  exact never_ok (fuel := 9) (Run.ub_of (by decide +kernel)) fuel _ e

/-- C140: an override that calls `clear()` and nothing else makes every discard undefined. -/
theorem C140_clear (hook : Hook K) (hh : ∀ s x, hook s x = [.clear]) {c : Cache K} (hover : c.maxElements < c.list.length) (fuel : Nat) :
    clipH hook (fuel + 1) c = .ub := by
  unfold clipH clipLoopH
  rw [if_pos (by exact hover)]
  cases hg : c.list.getLast? with
  | none => rfl
  | some b =>
    simp only [hh, hsteps, hstep, Run.bind_ok, Cache.clear]

/-- An override that adds a mark. -/
def mark (k : K) : Hook K := fun _ _ => [.add (.val k)]

/-- An override that gives up capacity, down to 1. -/
def shrink : Hook K := fun s _ => if s.cap ≤ 1 then [] else [.setCapacity (s.cap - 1)]

/-- C140 fails: an override that adds another key.  The nested call discards the same key again and more, and the outer one then
removes a node whose map entry stays: 3 is said to be in the cache, but the cache has only 99, and looking for 3 is undefined. -/
theorem C140_counterexample_add :
    (match runH (mark 99) 9 (Cache.new 2) [.add 1, .add 2, .add 3] with
      | .ok (c, _) => decide (c.contains 3 = true ∧ c.values = [99] ∧ c.log = [1, 1, 2])
      | _ => false) = true ∧
    runH (mark 99) 9 (Cache.new 2) [.add 1, .add 2, .add 3, .find 3] = .ub := by
  exact ⟨by decide +kernel, Run.ub_of (by decide +kernel)⟩

/-- C140 fails: an override that reduces the capacity. -/
theorem C140_counterexample_capacity : runH shrink 9 (Cache.new 3) [.add 1, .add 2, .add 3, .add 4] = .ub :=
  Run.ub_of (by decide +kernel)

/-- C140: an override that begins with `clip()`, or puts the discarded key back, never returns: each of the nested calls discards
the same key again. -/
theorem C140_endless (hook : Hook K) (hh : ∀ s x, ∃ ops, hook s x = .clip :: ops ∨ hook s x = .add .self :: ops)
    (fuel : Nat) : ∀ {c : Cache K}, (c.list.map Prod.fst).Nodup → (∀ p ∈ c.list, p.1 < c.next) → c.maxElements < c.list.length →
    clipH hook fuel c = .long := by
  induction fuel with
  | zero => exact fun _ _ _ => rfl
  | succ n ih =>
    intro c hi hf hover
    unfold clipH clipLoopH
    rw [if_pos (by exact hover)]
    cases hg : c.list.getLast? with
    | none =>
      rw [List.getLast?_eq_none_iff] at hg
      simp [hg] at hover
    | some b =>
      obtain ⟨l, hl⟩ := List.getLast?_eq_some_iff.1 hg
      have hb : b.1 ∉ l.map Prod.fst := by
        rw [hl, List.map_append, List.nodup_append] at hi
        exact fun hm => hi.2.2 _ hm b.1 (by simp) rfl
      have hfind : ∀ (d : Cache K), (∃ l', d.list = l' ++ [b] ∧ b.1 ∉ l'.map Prod.fst) → d.deref b.1 = .ok b.2 := by
        rintro d ⟨l', hd, hb'⟩
        unfold Cache.deref
        have : l'.find? (fun p => p.1 = b.1) = none := by
          rw [List.find?_eq_none]
          intro p hp e
          exact hb' (List.mem_map.2 ⟨p, hp, by simpa using e⟩)
        rw [hd, List.find?_append, this]
        simp
      simp only
      obtain ⟨ops, ho | ho⟩ := hh (abs ({ c with clipped := 0, map := fun k => if k = b.2 then none else c.map k, log := c.log ++ [b.2] } :
        Cache K)) b.2
      · rw [ho]
        have := ih (c := { c with map := fun k => if k = b.2 then none else c.map k, log := c.log ++ [b.2], clipped := 0 }) hi hf hover
        unfold clipH at this
        simp only [hsteps, hstep, this, Run.bind_long]
      · rw [ho]
        have hbn : b.1 < c.next := hf b (by rw [hl]; simp)
        have e1 := hfind { c with clipped := 0, map := fun k => if k = b.2 then none else c.map k, log := c.log ++ [b.2] } ⟨l, hl, hb⟩
        have e2 := hfind { c with
          clipped := 0, map := fun k => if k = b.2 then none else c.map k, log := c.log ++ [b.2],
          list := (c.next, b.2) :: c.list, next := c.next + 1 } ⟨(c.next, b.2) :: l, (by simp [hl]), (by
            rw [List.map_cons, List.mem_cons]
            rintro (h | h)
            · simp at h; omega
            · exact hb h)⟩
        have := ih (c := { c with
          clipped := 0, map := fun k => if k = b.2 then some c.next else if k = b.2 then none else c.map k,
          log := c.log ++ [b.2], list := (c.next, b.2) :: c.list, next := c.next + 1 }) (by
            show ((c.next, b.2) :: c.list).map Prod.fst |>.Nodup
            rw [List.map_cons, List.nodup_cons]
            refine ⟨fun hm => ?_, hi⟩
            obtain ⟨p, hp, e⟩ := List.mem_map.1 hm
            have := hf p hp
            simp at e
            omega) (by
            intro p hp
            rcases List.mem_cons.1 hp with rfl | hp
            · exact Nat.lt_succ_self _
            · exact Nat.lt_succ_of_lt (hf p hp)) (by simp only [List.length_cons]; omega)
        unfold clipH at this
        have hc : Cache.contains { c with clipped := 0, map := fun k => if k = b.2 then none else c.map k, log := c.log ++ [b.2] } b.2 = false := by
          simp [Cache.contains]
        simp only [hsteps, hstep, HArg.arg, addWith, Cache.readArg, e1, e2, Run.of_ok, Run.bind_ok, hc, Bool.false_eq_true, if_false, this,
          Run.bind_long]

example : (match runH (fun _ _ => [.add .self]) 9 (Cache.new 2) [.add 1, .add 2, .add 3] with
    | .long => true
    | _ => false) = true := by decide +kernel

end Verif.Cache
