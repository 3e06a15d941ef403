import Verif.Graph.Forward
import Verif.Graph.Frame
/-!
# Property C150: several sessions

A program may make session objects of its own (include/session.hpp lines 19-36) besides the default one (lines 206-210).  Each has a `forward_cache_`, and `run` clears
the one of its own session, but the operators look results up in, and write them to, the cache of the default session (include/operation.hpp lines 77-85, 170-195).
-/
namespace Verif.Graph
open Verif Res View Data

variable {α : Type}

/-! ### model -/

/-- The program, with the `forward_cache_` of its own sessions (include/session.hpp line 29); `st.cache` is that of the default session. -/
structure Ses (α : Type) where
  st : St α
  own : Nat → Nat → Option (Ten α)

/-- `clear_forward_cache` of the default session (`none`) or of session `j` (include/session.hpp lines 194-197). -/
def clearIn (j : Option Nat) (S : Ses α) : Ses α :=
  match j with
  | none => { S with st := { S.st with cache := fun _ => none } }
  | some j => { S with own := upd S.own j (fun _ => none) }

/-- `run` of a session (include/session.hpp lines 58-63). -/
def runIn [Zero α] (j : Option Nat) (e : Ex α) (S : Ses α) : Res (Ten α × Ses α) := do
  let S := clearIn j S
  let (y, st) ← forward e none S.st
  pure (y, { S with st := st })

/-- What a program does: bind a place holder, give a variable a value, clear the cache of a session, run an expression in a session. -/
inductive Ev (α : Type) where
  | bind (k : Nat) (t : Ten α)
  | store (v : Nat) (t : Ten α)
  | clear (j : Option Nat)
  | run (j : Option Nat) (e : Ex α)

/-- A program: what its runs return, and the state it leaves. -/
def exec [Zero α] : List (Ev α) → Ses α → Res (List (Ten α) × Ses α)
  | [], S => ok ([], S)
  | .bind k t :: es, S => exec es { S with st := { S.st with leaf := upd S.st.leaf k t } }
  | .store v t :: es, S => exec es { S with st := { S.st with data := upd S.st.data v t } }
  | .clear j :: es, S => exec es (clearIn j S)
  | .run j e :: es, S => do
    let (y, S) ← runIn j e S
    let (ys, S) ← exec es S
    pure (y :: ys, S)

/-! ### specification -/

/-- What the runs of a program should return: the values of the expressions for what is bound and stored then. -/
def values : List (Ev α) → (leaf data : Nat → Ten α) → Res (List (Ten α))
  | [], _, _ => ok []
  | .bind k t :: es, leaf, data => values es (upd leaf k t) data
  | .store v t :: es, leaf, data => values es leaf (upd data v t)
  | .clear _ :: es, leaf, data => values es leaf data
  | .run _ e :: es, leaf, data => do
    let y ← eval leaf data e
    let ys ← values es leaf data
    pure (y :: ys)

/-- What is bound after a program. -/
def leafAfter : List (Ev α) → (Nat → Ten α) → Nat → Ten α
  | [], leaf => leaf
  | .bind k t :: es, leaf => leafAfter es (upd leaf k t)
  | .store _ _ :: es, leaf => leafAfter es leaf
  | .clear _ :: es, leaf => leafAfter es leaf
  | .run _ _ :: es, leaf => leafAfter es leaf

/-- What is stored after a program. -/
def dataAfter : List (Ev α) → (Nat → Ten α) → Nat → Ten α
  | [], data => data
  | .bind _ _ :: es, data => dataAfter es data
  | .store v t :: es, data => dataAfter es (upd data v t)
  | .clear _ :: es, data => dataAfter es data
  | .run _ _ :: es, data => dataAfter es data

/-- Runs in sessions of one's own happen only while the cache of the default session is empty (`b`): after it was cleared, before anything else is run. -/
def Clears : Bool → List (Ev α) → Prop
  | _, [] => True
  | b, .bind _ _ :: es => Clears b es
  | b, .store _ _ :: es => Clears b es
  | b, .clear j :: es => Clears (b || j.isNone) es
  | b, .run j e :: es => (b = true ∨ j = none) ∧ Consistent e ∧ Clears false es

/-- Nothing clears the cache of the default session. -/
def Own : List (Ev α) → Prop
  | [] => True
  | .bind _ _ :: es => Own es
  | .store _ _ :: es => Own es
  | .clear j :: es => j ≠ none ∧ Own es
  | .run j _ :: es => j ≠ none ∧ Own es

/-! ### proofs -/

theorem runIn_default [Zero α] (e : Ex α) (S : Ses α) {y : Ten α} {s' : St α} (h : run e S.st = ok (y, s')) : runIn none e S = ok (y, { S with st := s' }) := by
  unfold runIn clearIn
  dsimp only
  rw [show forward e none { S.st with cache := fun _ => none } = ok (y, s') from h, bind_ok]
  rfl

theorem empty_run [Zero α] (e : Ex α) (s : St α) (h : s.cache = fun _ => none) : forward e none s = run e s := by
  cases s
  cases h
  rfl

/-- A result in the cache that is not empty stays there. -/
theorem forward_cached [Zero α] (e : Ex α) : ∀ (sl : Slot) (s s' : St α) (y : Ten α), forward e sl s = ok (y, s') →
    ∀ i, (query s.cache i).data ≠ [] → query s'.cache i = query s.cache i := by
  induction e with
  | leaf k =>
    intro sl s s' y h i _
    simp only [forward] at h
    obtain ⟨_, _, h⟩ := bind_eq_ok.mp h
    cases h
    rfl
  | var v c =>
    intro sl s s' y h i _
    simp only [forward, varForward] at h
    split at h <;> cases h <;> rfl
  | un id op e ih =>
    intro sl s s' y h i hi
    simp only [forward] at h
    split at h
    · rename_i hq
      obtain ⟨⟨x, s1⟩, h1, h⟩ := bind_eq_ok.mp h
      obtain ⟨z, _, h⟩ := bind_eq_ok.mp h
      cases h
      have hne : i ≠ id := by rintro rfl; exact hi hq
      have := ih _ _ _ _ h1 i hi
      unfold query at this ⊢
      dsimp only at this ⊢
      rw [upd_ne _ _ hne]
      exact this
    · cases h
      rfl
  | bin id op l r ihl ihr =>
    intro sl s s' y h i hi
    simp only [forward] at h
    split at h
    · rename_i hq
      obtain ⟨⟨x, s1⟩, h1, h⟩ := bind_eq_ok.mp h
      obtain ⟨⟨x', s2⟩, h2, h⟩ := bind_eq_ok.mp h
      obtain ⟨z, _, h⟩ := bind_eq_ok.mp h
      cases h
      have hne : i ≠ id := by rintro rfl; exact hi hq
      have a1 := ihl _ _ _ _ h1 i hi
      have a2 := ihr _ _ _ _ h2 i (by
        show (query s1.cache i).data ≠ []
        rw [a1]
        exact hi)
      have a3 : query s2.cache i = query s.cache i := a2.trans a1
      unfold query at a3 ⊢
      dsimp only at a3 ⊢
      rw [upd_ne _ _ hne]
      exact a3
    · cases h
      rfl

/-- After a run, the result of the operator at the root is in the cache. -/
theorem forward_caches [Zero α] {e : Ex α} {i : Nat} (hid : e.id? = some i) {sl : Slot} {s s' : St α} {y : Ten α} (h : forward e sl s = ok (y, s')) :
    query s'.cache i = y := by
  cases e with
  | leaf k => cases hid
  | var v c => cases hid
  | un id op e =>
    obtain rfl : id = i := Option.some.inj hid
    simp only [forward] at h
    split at h
    · obtain ⟨⟨x, s1⟩, h1, h⟩ := bind_eq_ok.mp h
      obtain ⟨z, _, h⟩ := bind_eq_ok.mp h
      cases h
      simp [query, upd_same]
    · cases h
      rfl
  | bin id op l r =>
    obtain rfl : id = i := Option.some.inj hid
    simp only [forward] at h
    split at h
    · obtain ⟨⟨x, s1⟩, h1, h⟩ := bind_eq_ok.mp h
      obtain ⟨⟨x', s2⟩, h2, h⟩ := bind_eq_ok.mp h
      obtain ⟨z, _, h⟩ := bind_eq_ok.mp h
      cases h
      simp [query, upd_same]
    · cases h
      rfl

/-- An operator whose result is in the cache returns it. -/
theorem forward_hit [Zero α] {e : Ex α} {i : Nat} (hid : e.id? = some i) (sl : Slot) (s : St α) (hq : (query s.cache i).data ≠ []) :
    ∃ s', forward e sl s = ok (query s.cache i, s') ∧ s'.grad = s.grad ∧ s'.done = s.done := by
  cases e with
  | leaf k => cases hid
  | var v c => cases hid
  | un id op e =>
    obtain rfl : id = i := Option.some.inj hid
    simp only [forward]
    rw [if_neg hq]
    exact ⟨_, rfl, rfl, rfl⟩
  | bin id op l r =>
    obtain rfl : id = i := Option.some.inj hid
    simp only [forward]
    rw [if_neg hq]
    exact ⟨_, rfl, rfl, rfl⟩

theorem exec_cached [Zero α] (es : List (Ev α)) : ∀ (S S' : Ses α) (ys : List (Ten α)), Own es → exec es S = ok (ys, S') →
    ∀ i, (query S.st.cache i).data ≠ [] → query S'.st.cache i = query S.st.cache i := by
  induction es with
  | nil => intro S S' ys _ h i _; cases h; rfl
  | cons ev es ih =>
    intro S S' ys ho h i hi
    cases ev with
    | bind k t => exact ih _ _ _ ho h i hi
    | store v t => exact ih _ _ _ ho h i hi
    | clear j =>
      obtain ⟨h1, h2⟩ := ho
      cases j with
      | none => exact absurd rfl h1
      | some j => exact ih _ _ _ h2 h i hi
    | run j e =>
      obtain ⟨h1, h2⟩ := ho
      cases j with
      | none => exact absurd rfl h1
      | some j =>
        simp only [exec, runIn, clearIn] at h
        obtain ⟨⟨y, S1⟩, a1, h⟩ := bind_eq_ok.mp h
        obtain ⟨⟨y', s1⟩, a2, a1⟩ := bind_eq_ok.mp a1
        cases a1
        obtain ⟨⟨zs, S2⟩, a3, h⟩ := bind_eq_ok.mp h
        cases h
        have b1 := forward_cached e _ _ _ _ a2 i hi
        have b2 := ih _ _ _ h2 a3 i (by
          show (query s1.cache i).data ≠ []
          rw [b1]
          exact hi)
        exact b2.trans b1

/-! ### C150 -/

/-- Partial (C150): whatever it binds and stores, a program whose own sessions run only while the cache of the default session is empty gets the values of the
expressions for what is bound and stored then, and stops where they have none.  The full statement drops `Clears` (keeping `Consistent` of the expressions); it fails, see
`session_stale_violated`. -/
theorem sessions_fresh_partial [Zero α] (es : List (Ev α)) : ∀ (b : Bool) (S : Ses α), Clears b es → (b = true → S.st.cache = fun _ => none) →
    (∀ ys, values es S.st.leaf S.st.data = ok ys → ∃ S', exec es S = ok (ys, S')) ∧ (values es S.st.leaf S.st.data = abort → exec es S = abort) ∧
    (values es S.st.leaf S.st.data = ub → exec es S = ub) := by
  induction es with
  | nil =>
    intro b S _ _
    refine ⟨fun ys h => ?_, fun h => (by cases h), fun h => (by cases h)⟩
    cases h
    exact ⟨S, rfl⟩
  | cons ev es ih =>
    intro b S hc hb
    cases ev with
    | bind k t => exact ih b { S with st := { S.st with leaf := upd S.st.leaf k t } } hc hb
    | store v t => exact ih b { S with st := { S.st with data := upd S.st.data v t } } hc hb
    | clear j =>
      cases j with
      | none => exact ih _ (clearIn none S) hc (fun _ => rfl)
      | some j => exact ih _ (clearIn (some j) S) hc (fun h => hb (by simpa using h))
    | run j e =>
      obtain ⟨h1, h2, h3⟩ := hc
      have hrun : forward e none (clearIn j S).st = run e S.st := by
        cases j with
        | none => rfl
        | some j => exact empty_run e S.st (hb (by simpa using h1))
      obtain ⟨f1, f2, f3⟩ := run_fresh_partial e h2 S.st
      have hexec : exec (.run j e :: es) S = (run e S.st >>= fun p => exec es { (clearIn j S) with st := p.2 } >>= fun q => ok (p.1 :: q.1, q.2)) := by
        simp only [exec, runIn]
        rw [hrun]
        cases run e S.st <;> rfl
      simp only [values]
      rw [hexec]
      cases hv : eval S.st.leaf S.st.data e with
      | ok y =>
        obtain ⟨s', hr⟩ := f1 y hv
        obtain ⟨k1, k2, -, -⟩ := run_keeps hr
        obtain ⟨g1, g2, g3⟩ := ih false { (clearIn j S) with st := s' } h3 (fun h => by cases h)
        dsimp only at g1 g2 g3
        rw [k1, k2] at g1 g2 g3
        rw [hr, bind_ok, bind_ok]
        dsimp only
        cases hw : values es S.st.leaf S.st.data with
        | ok zs =>
          obtain ⟨S', hS⟩ := g1 zs hw
          rw [hS]
          refine ⟨fun ys h => ?_, fun h => (by cases h), fun h => (by cases h)⟩
          cases h
          exact ⟨S', rfl⟩
        | abort =>
          rw [g2 hw]
          exact ⟨fun ys h => (by cases h), fun _ => rfl, fun h => (by cases h)⟩
        | ub =>
          rw [g3 hw]
          exact ⟨fun ys h => (by cases h), fun h => (by cases h), fun _ => rfl⟩
      | abort =>
        rw [f2 hv]
        exact ⟨fun ys h => (by cases h), fun _ => rfl, fun h => (by cases h)⟩
      | ub =>
        rw [f3 hv]
        exact ⟨fun ys h => (by cases h), fun h => (by cases h), fun _ => rfl⟩

/-- C150 is violated: once an expression was run, in any session, with a result that is not empty, every session of one's own returns that result again, whatever was
bound, stored and run in such sessions since; no operator is evaluated, and the gradients are not set to zero, as a training step relies on. -/
theorem session_stale_violated [Zero α] (j : Option Nat) (e : Ex α) {i : Nat} (hid : e.id? = some i) (S S1 S2 : Ses α) (y : Ten α) (hy : y.data ≠ [])
    (h1 : runIn j e S = ok (y, S1)) (es : List (Ev α)) (ho : Own es) (zs : List (Ten α)) (h2 : exec es S1 = ok (zs, S2)) (k : Nat) :
    ∃ S3, runIn (some k) e S2 = ok (y, S3) ∧ S3.st.grad = S2.st.grad ∧ S3.st.done = S2.st.done := by
  obtain ⟨⟨y', s1⟩, a1, a2⟩ := bind_eq_ok.mp h1
  cases a2
  have c1 := forward_caches hid a1
  have c2 := exec_cached es _ _ _ ho h2 i (by
    show (query s1.cache i).data ≠ []
    rw [c1]
    exact hy)
  have c3 : query S2.st.cache i = y := c2.trans c1
  obtain ⟨s3, hs, hg, hd⟩ := forward_hit hid none S2.st (by rw [c3]; exact hy)
  rw [c3] at hs
  refine ⟨⟨s3, upd S2.own k (fun _ => none)⟩, ?_, hg, hd⟩
  unfold runIn clearIn
  dsimp only
  rw [hs, bind_ok]
  rfl

theorem cached_constant [Zero α] (e : Ex α) {i : Nat} (hid : e.id? = some i) (y : Ten α) (hy : y.data ≠ []) (es : List (Ev α)) : ∀ (S S' : Ses α) (zs : List (Ten α)),
    Own es → (∀ j e', Ev.run j e' ∈ es → e' = e) → query S.st.cache i = y → exec es S = ok (zs, S') → ∀ z ∈ zs, z = y := by
  induction es with
  | nil => intro S S' zs _ _ _ h z hz; cases h; cases hz
  | cons ev es ih =>
    intro S S' zs ho he hq h z hz
    have he' : ∀ j e', Ev.run j e' ∈ es → e' = e := fun j e' hm => he j e' (List.mem_cons_of_mem _ hm)
    cases ev with
    | bind k t => exact ih { S with st := { S.st with leaf := upd S.st.leaf k t } } S' zs ho he' hq h z hz
    | store v t => exact ih { S with st := { S.st with data := upd S.st.data v t } } S' zs ho he' hq h z hz
    | clear j =>
      obtain ⟨h1, h2⟩ := ho
      cases j with
      | none => exact absurd rfl h1
      | some j => exact ih (clearIn (some j) S) S' zs h2 he' hq h z hz
    | run j e' =>
      obtain ⟨h1, h2⟩ := ho
      obtain rfl : e' = e := he j e' List.mem_cons_self
      cases j with
      | none => exact absurd rfl h1
      | some j =>
        simp only [exec, runIn, clearIn] at h
        obtain ⟨⟨x, S1⟩, a1, h⟩ := bind_eq_ok.mp h
        obtain ⟨⟨x', s1⟩, a2, a1⟩ := bind_eq_ok.mp a1
        cases a1
        obtain ⟨⟨ws, S2⟩, a3, h⟩ := bind_eq_ok.mp h
        cases h
        have hne : (query S.st.cache i).data ≠ [] := by rw [hq]; exact hy
        obtain ⟨s2, b1, -, -⟩ := forward_hit hid none S.st hne
        rw [b1] at a2
        cases a2
        rcases List.mem_cons.mp hz with rfl | hz
        · exact hq
        · exact ih _ _ _ h2 he' ((forward_cached e' _ _ _ _ b1 i hne).trans hq) a3 z hz

/-- C150, violated: a training loop that runs its loss in a session of its own, and stores new values in the variables and binds new batches between the runs, is told
the loss of the first run for ever. -/
theorem session_loop_violated [Zero α] (j : Option Nat) (e : Ex α) {i : Nat} (hid : e.id? = some i) (S S1 S2 : Ses α) (y : Ten α) (hy : y.data ≠ [])
    (h1 : runIn j e S = ok (y, S1)) (es : List (Ev α)) (ho : Own es) (he : ∀ j e', Ev.run j e' ∈ es → e' = e) (zs : List (Ten α)) (h2 : exec es S1 = ok (zs, S2)) :
    ∀ z ∈ zs, z = y := by
  obtain ⟨⟨y', s1⟩, a1, a2⟩ := bind_eq_ok.mp h1
  cases a2
  exact cached_constant e hid y hy es _ _ zs ho he (forward_caches hid a1) h2

theorem exec_keeps [Zero α] (es : List (Ev α)) : ∀ (S S' : Ses α) (ys : List (Ten α)), exec es S = ok (ys, S') →
    S'.st.leaf = leafAfter es S.st.leaf ∧ S'.st.data = dataAfter es S.st.data := by
  induction es with
  | nil => intro S S' ys h; cases h; exact ⟨rfl, rfl⟩
  | cons ev es ih =>
    intro S S' ys h
    cases ev with
    | bind k t => exact ih _ _ _ h
    | store v t => exact ih _ _ _ h
    | clear j =>
      cases j with
      | none => exact ih (clearIn none S) _ _ h
      | some j => exact ih (clearIn (some j) S) _ _ h
    | run j e =>
      simp only [exec, runIn] at h
      obtain ⟨⟨y, S1⟩, a1, h⟩ := bind_eq_ok.mp h
      obtain ⟨⟨y', s1⟩, a2, a1⟩ := bind_eq_ok.mp a1
      cases a1
      obtain ⟨⟨zs, S2⟩, a3, h⟩ := bind_eq_ok.mp h
      cases h
      obtain ⟨k1, k2, -, -⟩ := forward_keeps e none _ _ _ a2
      obtain ⟨g1, g2⟩ := ih _ _ _ a3
      dsimp only at g1 g2
      rw [k1] at g1
      rw [k2] at g2
      cases j <;> exact ⟨g1, g2⟩

/-- C150: the default session is not misled by the others: after any program, what it returns is the value for what was bound and stored last. -/
theorem default_after_own [Zero α] (e : Ex α) (hc : Consistent e) (es : List (Ev α)) (S S1 : Ses α) (zs : List (Ten α)) (h : exec es S = ok (zs, S1)) (y : Ten α)
    (hy : eval (leafAfter es S.st.leaf) (dataAfter es S.st.data) e = ok y) : ∃ S2, runIn none e S1 = ok (y, S2) := by
  obtain ⟨k1, k2⟩ := exec_keeps es S S1 zs h
  rw [← k1, ← k2] at hy
  obtain ⟨s', h⟩ := (run_fresh_partial e hc S1.st).1 y hy
  exact ⟨_, runIn_default e S1 h⟩

/-! ### examples -/

/-- Twice a tensor of integers. -/
def twice : UOp Int := ⟨fun x => ok ⟨x.shape, x.data.map (2 * ·)⟩, fun _ _ g => ok g⟩

theorem twice_consistent : Consistent (.un 0 twice (.leaf 0)) := by
  intro p hp q hq i h1 h2
  simp only [occs, List.mem_cons, List.not_mem_nil, or_false] at hp hq
  rcases hp with rfl | rfl <;> rcases hq with rfl | rfl
  · rfl
  · cases h2
  · cases h1
  · cases h1

/-- Nothing bound, nothing stored. -/
def start : Ses Int := ⟨⟨fun _ => ⟨[], []⟩, fun _ => ⟨[], []⟩, fun _ => ⟨[], []⟩, fun _ => false, fun _ => ⟨⟨[], []⟩, ⟨[], []⟩, ⟨[], []⟩⟩, fun _ => none, false, []⟩, fun _ _ => none⟩

/-- 3 and 5 are doubled in a session of one's own: the second result is that of the first again. -/
example : (exec [.bind 0 ⟨[1], [3]⟩, .run (some 0) (.un 0 twice (.leaf 0)), .bind 0 ⟨[1], [5]⟩, .run (some 0) (.un 0 twice (.leaf 0))] start >>= fun p => ok p.1) =
    ok [⟨[1], [6]⟩, ⟨[1], [6]⟩] := by decide +kernel

/-- As `values` has it. -/
example : values [.bind 0 ⟨[1], [3]⟩, .run (some 0) (.un 0 twice (.leaf 0)), .bind 0 ⟨[1], [5]⟩, .run (some 0) (.un 0 twice (.leaf 0))] (fun _ => ⟨[], []⟩) (fun _ => ⟨[], []⟩) =
    ok [⟨[1], [6]⟩, ⟨[1], [10]⟩] := by decide +kernel

/-- The conditions of `session_stale_violated`, with another session and another value in between. -/
example : ∃ S1 S2 S3, runIn none (.un 0 twice (.leaf 0)) { start with st := { start.st with leaf := upd start.st.leaf 0 ⟨[1], [3]⟩ } } = ok (⟨[1], [6]⟩, S1) ∧
    exec [.bind 0 ⟨[1], [5]⟩] S1 = ok ([], S2) ∧ runIn (some 7) (.un 0 twice (.leaf 0)) S2 = ok (⟨[1], [6]⟩, S3) := by
  have h1 : ∃ S1, runIn none (.un 0 twice (.leaf 0)) { start with st := { start.st with leaf := upd start.st.leaf 0 ⟨[1], [3]⟩ } } = ok (⟨[1], [6]⟩, S1) := ⟨_, rfl⟩
  obtain ⟨S1, h1⟩ := h1
  obtain ⟨S3, h3, -, -⟩ := session_stale_violated none (.un 0 twice (.leaf 0)) rfl _ S1 _ _ (by decide) h1 [.bind 0 ⟨[1], [5]⟩] trivial [] rfl 7
  exact ⟨S1, _, S3, h1, rfl, h3⟩

/-- A program that clears the cache of the default session before every run. -/
example : Clears false [.bind 0 ⟨[1], [3]⟩, .clear none, .run (some 0) (.un 0 twice (.leaf 0)), .bind 0 ⟨[1], [5]⟩, .clear none, .run (some 0) (.un 0 twice (.leaf 0)),
    .run none (.un 0 twice (.leaf 0))] := by
  have hc := twice_consistent
  exact ⟨Or.inl rfl, hc, Or.inl rfl, hc, Or.inr rfl, hc, trivial⟩

/-- The same program run in the default session at the end. -/
example : ∃ zs S1 S2, exec [.bind 0 ⟨[1], [3]⟩, .run (some 0) (.un 0 twice (.leaf 0)), .bind 0 ⟨[1], [5]⟩, .run (some 0) (.un 0 twice (.leaf 0))] start = ok (zs, S1) ∧
    runIn none (.un 0 twice (.leaf 0)) S1 = ok (⟨[1], [10]⟩, S2) := by
  have h1 : ∃ p, exec [.bind 0 ⟨[1], [3]⟩, .run (some 0) (.un 0 twice (.leaf 0)), .bind 0 ⟨[1], [5]⟩, .run (some 0) (.un 0 twice (.leaf 0))] start = ok p := ⟨_, rfl⟩
  obtain ⟨⟨zs, S1⟩, h1⟩ := h1
  obtain ⟨S2, h2⟩ := default_after_own (.un 0 twice (.leaf 0)) twice_consistent _ _ S1 zs h1 ⟨[1], [10]⟩ (by decide +kernel)
  exact ⟨zs, S1, S2, h1, h2⟩

/-- Three rounds of such a loop. -/
example : (exec [.bind 0 ⟨[1], [3]⟩, .run (some 0) (.un 0 twice (.leaf 0)), .bind 0 ⟨[1], [5]⟩, .run (some 1) (.un 0 twice (.leaf 0)), .bind 0 ⟨[1], [8]⟩, .clear (some 1),
    .run (some 1) (.un 0 twice (.leaf 0))] start >>= fun p => ok p.1) = ok [⟨[1], [6]⟩, ⟨[1], [6]⟩, ⟨[1], [6]⟩] := by decide +kernel

end Verif.Graph
