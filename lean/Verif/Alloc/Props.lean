import Verif.Alloc.Lemmas
/-!
# C08-C10: the caching allocator
-/
namespace Verif.Alloc
open Verif Res

/-- **C08**: after any history of correct use in which memory never ran out, a request succeeds; the block returned
has the requested size, overlaps no block anyone holds, is known to the system, is all zero, and no byte outside it
(in particular no byte of another owner's block) changed. -/
theorem alloc_disjoint_zeroed {s : St} (h : Reach s) {size pick : Nat} {sys1 sys2 : Option Nat}
    (hl : Legal s (.allocate size pick sys1 sys2)) :
    ∃ s' a, allocate s size pick sys1 sys2 = ok (s', a) ∧ s'.owned = (size, a) :: s.owned
      ∧ (∀ b ∈ s.owned, Disjoint (size, a) b) ∧ (size, a) ∈ s'.live
      ∧ (∀ x, Inside (size, a) x → s'.mem x = 0) ∧ (∀ x, ¬ Inside (size, a) x → s'.mem x = s.mem x) := by
  rcases h.inv.allocate (pick := pick) (sys2 := sys2) hl.1 hl.2.2 (fun hn => absurd hn hl.2.1) with
    ⟨hn, _⟩ | ⟨s', a, h1, -, h2⟩
  · exact absurd hn hl.2.1
  · exact ⟨s', a, h1, h2⟩

/-- **C08**, invariant form: at any time the blocks held by users are pairwise disjoint and live. -/
theorem alloc_owned_disjoint {s : St} (h : Reach s) : s.owned.Pairwise Disjoint ∧ ∀ b ∈ s.owned, b ∈ s.live := by
  have hi := h.inv
  constructor
  · have hp : s.allocated.Pairwise Disjoint := by
      have := (hi.perm.pairwise_iff (fun h => Disjoint.symm h)).mpr hi.disj
      exact (List.pairwise_append.mp this).1
    exact (hi.own.pairwise_iff (fun h => Disjoint.symm h)).mpr hp
  · intro b hb
    exact hi.perm.subset (List.mem_append_left _ (hi.own.subset hb))

/-- One event of correct use changes a byte of a block that is held only by writing to it, and the block stays held unless it is given back. -/
theorem step_contents {s s' : St} (h : Reach s) {o : Op} (hl : Legal s o) {b : Block} (hb : b ∈ s.owned) (ho : o ≠ .deallocate b) (h1 : step s o = ok s') :
    b ∈ s'.owned ∧ ∀ x, Inside b x → s'.mem x = lastWritten x [o] (s.mem x) := by
  cases o with
  | allocate size pick sys1 sys2 =>
    obtain ⟨s2, a, a1, a2, a3, -, -, a6⟩ := alloc_disjoint_zeroed h hl
    rw [step, a1, bind_ok] at h1
    cases h1
    refine ⟨a2 ▸ List.mem_cons_of_mem _ hb, fun x hx => a6 x fun hi => ?_⟩
    have := a3 b hb
    simp only [Inside, Disjoint] at *
    omega
  | deallocate b' =>
    cases h1
    exact ⟨(List.mem_erase_of_ne (show b ≠ b' from fun e => ho (by rw [e]))).mpr hb, fun x _ => rfl⟩
  | write y v =>
    cases h1
    exact ⟨hb, fun x _ => rfl⟩

/-- **C08**, contents: whatever other owners ask for, give back and write, a block that is held keeps in every byte what was written there last. -/
theorem alloc_contents (b : Block) (os : List Op) : ∀ {s s' : St}, Reach s → b ∈ s.owned → LegalAll b s os → run s os = ok s' →
    b ∈ s'.owned ∧ ∀ x, Inside b x → s'.mem x = lastWritten x os (s.mem x) := by
  induction os with
  | nil => intro s s' _ hb _ h; cases h; exact ⟨hb, fun _ _ => rfl⟩
  | cons o os ih =>
    intro s s' hr hb hl h
    obtain ⟨s1, a1, a2⟩ := bind_eq_ok.mp h
    obtain ⟨l1, l2, l3⟩ := hl
    obtain ⟨b1, b2⟩ := step_contents hr l1 hb l2 a1
    obtain ⟨c1, c2⟩ := ih (.step hr l1 a1) b1 (l3 s1 a1) a2
    refine ⟨c1, fun x hx => ?_⟩
    rw [c2 x hx, b2 x hx]
    cases o <;> rfl

/-- A history: two blocks, one given back and reused for a request of the same size. -/
def demoOps : List Op :=
  [.allocate 8 0 (some 100) none, .allocate 16 0 (some 200) none, .write 101 7, .deallocate (8, 100)]

example : ∃ s, run St.init demoOps = ok s ∧ Reach s ∧ Legal s (.allocate 8 0 (some 300) none) ∧ s.mem 101 = 7 ∧
    ∃ s', allocate s 8 0 (some 300) none = ok (s', 100) ∧ s'.mem 101 = 0 := by
  refine ⟨_, rfl, ?_, ?_, rfl, _, rfl, rfl⟩
  · refine .step (o := .deallocate (8, 100)) (.step (o := .write 101 7) (.step (o := .allocate 16 0 (some 200) none)
      (.step (o := .allocate 8 0 (some 100) none) .init ?_ rfl) ?_ rfl) ?_ rfl) ?_ rfl
    · exact ⟨by decide, by decide, fun a _ b hb => by simp [St.init] at hb⟩
    · refine ⟨by decide, by decide, fun a ha b hb => ?_⟩
      cases ha
      simp [obtain, St.init] at hb
      subst hb; simp [Disjoint]
    · exact ⟨(8, 100), by simp [obtain], by simp [Inside]⟩
    · simp [Legal, obtain]
  · refine ⟨by decide, by decide, fun a ha b hb => ?_⟩
    cases ha
    simp [obtain, St.init, deallocate] at hb
    rcases hb with rfl | rfl <;> simp [Disjoint]

/-- A byte of the first block survives requests and writes of others. -/
example : ∃ s s', run St.init [.allocate 8 0 (some 100) none] = ok s ∧ run s [.write 101 7, .allocate 4 0 (some 300) none, .write 300 9, .deallocate (4, 300)] = ok s' ∧
    s'.mem 101 = 7 ∧ lastWritten 101 [.write 101 7, .allocate 4 0 (some 300) none, .write 300 9, .deallocate (4, 300)] (s.mem 101) = 7 := ⟨_, _, rfl, rfl, rfl, rfl⟩

/-- A history in which a request fails while blocks are in reserve. -/
def oomOps : List Op :=
  [.allocate 8 0 (some 100) none, .deallocate (8, 100), .allocate 16 0 none (some 200)]

/-- **C09** does not hold: after the failed request the block at 100 has gone back to the system, but the next
request for 8 bytes hands it out again (and clears it): use of released memory. -/
theorem alloc_oom_violated : ∃ s, run St.init oomOps = ok s ∧ (8, 100) ∉ s.live ∧
    allocate s 8 0 none none = ub := ⟨_, rfl, by decide, rfl⟩

/-- **C09** also fails at shutdown: the block at 100 is released a second time. -/
theorem alloc_oom_double_free_violated : ∃ s, run St.init oomOps = ok s ∧ shutdown s = ub := ⟨_, rfl, rfl⟩

/-- **C09**, the part that holds: if requests fail only while the reserve is empty, no operation ever has undefined
behaviour (it succeeds or stops with the out-of-memory assertion).  Missing: failures with a non-empty reserve,
where the property is violated (above). -/
theorem alloc_oom_partial {s : St} (h : ReachF s) {o : Op} (hl : LegalF s o) : step s o ≠ ub := by
  cases o with
  | allocate size pick sys1 sys2 =>
    rcases h.inv.allocate (pick := pick) (sys2 := sys2) hl.1 hl.2.2 hl.2.1 with ⟨_, hx⟩ | ⟨s2, a, hx, -⟩
    · simp [step, hx]
    · simp [step, hx]
  | deallocate b => simp [step]
  | write x v => simp [step]

example : LegalF St.init (.allocate 8 0 none none) ∧ step St.init (.allocate 8 0 none none) = abort := by
  exact ⟨⟨by decide, fun _ => rfl, fun a ha => by cases ha⟩, rfl⟩

/-- **C10**: after any history of correct use in which memory never ran out, shutdown succeeds (no block is released that
the system does not regard as live), leaves nothing live, and the blocks released are exactly the blocks obtained, each
once. -/
theorem alloc_release_once {s : St} (h : Reach s) :
    ∃ s', shutdown s = ok s' ∧ s'.live = [] ∧ s'.released.Perm s'.obtained := by
  have hi := h.inv
  obtain ⟨s1, a1, a2, a3, a4, a5⟩ := sysFreeAll_ok s.allocated s s.reserved hi.perm.symm
  obtain ⟨s2, b1, b2, b3, b4, b5⟩ := sysFreeAll_ok s1.reserved s1 [] (by simpa [a5] using a2)
  refine ⟨s2, by rw [shutdown, a1, bind_ok, b1], List.perm_nil.mp b2, ?_⟩
  rw [b3, a3, hi.rel, b4, a4, a5]
  simpa using hi.perm.trans hi.log.symm

example : ∃ s s', run St.init demoOps = ok s ∧ shutdown s = ok s' ∧ s'.released = [(16, 200), (8, 100)] ∧
    s'.obtained = [(8, 100), (16, 200)] := ⟨_, _, rfl, rfl, rfl, rfl⟩

end Verif.Alloc
