import Verif.Lemmas.Stat

/-! # C68: the report of the statistics phases -/

namespace Tdc.Stat

open Json

/-- The report of a program with a phase around it is the tree of its phases: each with its title, its final and its peak amount of memory, the amount allocated
in the phase around it when it began, the values it logged, its sub-phases in their order, and times nested as the phases are.
The allocations of the bookkeeping itself, and those made while tracking is paused, are not counted.
Titles, keys and values of fewer than 64 bytes only, tracking paused only around allocations, and values logged only in the current phase:
see `stat_long_title`, `stat_long_value`, `stat_paused_log`, `stat_paused_phase` and `stat_outer_log` for the others. -/
theorem stat_report_partial (clock : Nat → Nat) (hc : ∀ a b, a ≤ b → clock a ≤ clock b) (title : List UInt8) (own : List Mem) (body : List Act)
    (ht : Short title) (hb : NamesAll Short body) :
    ∃ j n, report clock (run clock ([], 0) (.begin title own :: eventsAll body)) = .ok j ∧ Reports j title 0 (clock 0) (clock n) body := by
  have e0 : run clock ([], 0) (.begin title own :: eventsAll body) = run clock ([⟨strncpy title, clock 0, 0, 0, 0, 0, [], [], true⟩], 1) (eventsAll body) := by
    show run clock (init title own (clock 0) [], 1) _ = _
    rw [init_ok title own _ (by intro p hp; cases hp)]
    rfl
  obtain ⟨i, ds, js, h1, h2, h3, h4⟩ := run_all hc body hb ⟨strncpy title, clock 0, 0, 0, 0, 0, [], [], true⟩ [] 1 (by intro p hp; simp at hp; rw [hp])
  obtain ⟨j, h5, h6⟩ := toJson_ok hc (b := true) (o := 0) (i := 0) ht hb h1 h3 h4
  refine ⟨j, i + 1, ?_, h6⟩
  rw [e0, h2]
  rw [List.map_nil]
  show ({ after _ _ _ _ with stop := clock i } : Phase).data.toJson = _
  exact h5

/-! ## Splitting a phase -/

/-- values are logged in the current phase only -/
def Ev.Here : Ev → Prop
  | .log d _ _ _ => d = 0
  | _ => True

/-- All phases but the current one count, and agree about what is allocated. -/
inductive Agree : Stack → Prop
  | nil : Agree []
  | one (p : Phase) : Agree [p]
  | cons (p q : Phase) (s : Stack) : q.track = true → p.off + p.cur = q.cur → Agree (q :: s) → Agree (p :: q :: s)

theorem Agree.of_top {p p' : Phase} {s : Stack} (h : Agree (p :: s)) (ho : p'.off + p'.cur = p.off + p.cur) : Agree (p' :: s) := by
  cases h with
  | one => exact .one _
  | cons _ q s h1 h2 h3 => exact .cons _ _ _ h1 (by omega) h3

theorem Agree.on {p : Phase} {s : Stack} (h : Agree (p :: s)) : AllOn s := by
  induction s generalizing p with
  | nil => intro x hx; cases hx
  | cons q s ih =>
    cases h with
    | cons _ _ _ h1 h2 h3 =>
      intro x hx
      rcases List.mem_cons.1 hx with rfl | hx
      · exact h1
      · exact ih h3 x hx

theorem Agree.map {s : Stack} (m : Mem) (h : Agree s) : Agree (s.map (memP m)) := by
  induction h with
  | nil => exact .nil
  | one p => exact .one _
  | cons p q s h1 h2 h3 ih =>
    refine .cons _ _ _ (by rw [memP_track]; exact h1) ?_ ih
    cases m <;> simp only [memP] <;> omega

theorem Agree.track {s : Stack} (m : Mem) (h : Agree s) : Agree (track m s) := by
  cases s with
  | nil => exact .nil
  | cons p s =>
    rcases hp : p.track with _ | _
    · rw [track_off m s hp]; exact h
    · rw [track_on m]
      · exact h.map m
      · intro x hx
        rcases List.mem_cons.1 hx with rfl | hx
        · exact hp
        · exact h.on x hx

theorem Agree.trackAll {s : Stack} (ms : List Mem) (h : Agree s) : Agree (trackAll ms s) := by
  induction ms generalizing s with
  | nil => exact h
  | cons m ms ih => exact ih (h.track m)

theorem Agree.setTrack {s : Stack} (b : Bool) (h : Agree s) : Agree (setTrack b 0 s) := by
  cases s with
  | nil => exact .nil
  | cons p s => exact h.of_top rfl

theorem Agree.init {s : Stack} (t : List UInt8) (own : List Mem) (n : Nat) (h : Agree s) : Agree (init t own n s) := by
  cases s with
  | nil =>
    have : Stat.trackAll own [] = [] := by
      unfold Stat.trackAll
      induction own with
      | nil => rfl
      | cons m ms ih => exact ih
    simp only [Stat.init, Stat.setTrack, this]
    exact .one _
  | cons p s =>
    unfold Stat.init
    simp only
    rw [show Stat.setTrack false 0 (p :: s) = { p with track := false } :: s from rfl, trackAll_off own s rfl]
    exact .cons _ _ _ rfl (by simp [topCur, Stat.setTrack]) (h.of_top rfl)

theorem finish_one (p : Phase) (own : List Mem) (n : Nat) : finish own n [p] = [] := by
  show (trackAll own [{ p with stop := n, track := false }]).tail = []
  rw [trackAll_off own [] rfl]
  rfl

theorem Agree.finish {s : Stack} (own : List Mem) (n : Nat) (h : Agree s) : Agree (finish own n s) := by
  cases h with
  | nil => exact .nil
  | one p => rw [finish_one]; exact .nil
  | cons p q s h1 h2 h3 => exact h3.of_top rfl

/-- `split` does what the end of the phase and the beginning of the next one do. -/
theorem split_eq {s : Stack} (h : Agree s) (t : List UInt8) (own own' : List Mem) (n n' : Nat) (hs : s ≠ []) : split t own own' n n' s = init t own' n' (finish own n s) := by
  cases h with
  | nil => exact absurd rfl hs
  | one p => rfl
  | cons p q s h1 h2 h3 =>
    unfold split
    simp only
    have e : ∀ (x : Stack), finish own n (p :: q :: s) = addSub ({ p with stop := n, track := false } : Phase).data (q :: s) := fun _ => rfl
    rw [e []]
    unfold addSub init
    simp only
    rw [show ∀ (q : Phase) (s : Stack), Stat.setTrack false 0 (q :: s) = { q with track := false } :: s from fun _ _ => rfl, trackAll_off own' s rfl]
    simp only [setTrack, topCur, h2]

theorem Agree.step {clock : Nat → Nat} {st : Stack × Nat} (e : Ev) (he : e.Here) (h : Agree st.1) : Agree (step clock st e).1 := by
  obtain ⟨s, i⟩ := st
  cases e with
  | «begin» t own => exact Agree.init t own _ h
  | fin own => exact Agree.finish own _ h
  | split t own own' =>
    show Agree (split t own own' (clock i) (clock (i + 1)) s)
    by_cases hs : s = []
    · subst hs; exact .nil
    · rw [split_eq h _ _ _ _ _ hs]; exact (h.finish own _).init t own' _
  | log d k v own =>
    have : d = 0 := he
    subst this
    show Agree (logStat 0 k v own s)
    unfold logStat
    refine Agree.setTrack true ?_
    have := Agree.trackAll own (Agree.setTrack false h)
    revert this
    show Agree (Stat.trackAll own (Stat.setTrack false 0 s)) → Agree (List.modify (Stat.trackAll own (Stat.setTrack false 0 s)) 0 _)
    generalize Stat.trackAll own (Stat.setTrack false 0 s) = s'
    intro h'
    cases s' with
    | nil => exact .nil
    | cons p s => exact h'.of_top rfl
  | mem m => exact Agree.track m h
  | pause => exact Agree.setTrack false h
  | resume => exact Agree.setTrack true h

theorem Agree.run {clock : Nat → Nat} (h : List Ev) (hh : ∀ e ∈ h, e.Here) (st : Stack × Nat) (ha : Agree st.1) : Agree (run clock st h).1 := by
  induction h generalizing st with
  | nil => exact ha
  | cons e h ih => exact ih (fun e he => hh e (by simp [he])) _ (Agree.step e (hh e (by simp)) ha)

/-- After every history that logs in the current phase only, and in which some phase is running, `split` ends it and begins the next one. -/
theorem stat_split (clock : Nat → Nat) (h : List Ev) (hh : ∀ e ∈ h, e.Here) (hr : (run clock ([], 0) h).1 ≠ []) (t : List UInt8) (own own' : List Mem) :
    run clock ([], 0) (h ++ [.split t own own']) = run clock ([], 0) (h ++ [.fin own, .begin t own']) := by
  rw [run_append, run_append]
  have := Agree.run (clock := clock) h hh ([], 0) .nil
  revert this hr
  generalize run clock ([], 0) h = st
  obtain ⟨s, i⟩ := st
  intro hr ha
  show (split t own own' (clock i) (clock (i + 1)) s, i + 2) = (init t own' (clock (i + 1)) (finish own (clock i) s), i + 1 + 1)
  rw [split_eq ha _ _ _ _ _ hr]

/-! ## Where the code departs from it -/

/-- A title of 64 bytes or more fills the buffer without a terminator, and the report reads past its end. -/
theorem stat_long_title (clock : Nat → Nat) (hc : ∀ a b, a ≤ b → clock a ≤ clock b) (title : List UInt8) (own : List Mem) (body : List Act)
    (hb : NamesAll Short body) (h1 : 64 ≤ title.length) (h2 : 0 ∉ title) :
    report clock (run clock ([], 0) (.begin title own :: eventsAll body)) = .error .ub := by
  have e0 : run clock ([], 0) (.begin title own :: eventsAll body) = run clock ([⟨strncpy title, clock 0, 0, 0, 0, 0, [], [], true⟩], 1) (eventsAll body) := by
    show run clock (init title own (clock 0) [], 1) _ = _
    rw [init_ok title own _ (by intro p hp; cases hp)]
    rfl
  obtain ⟨i, ds, js, _, e2, _, _⟩ := run_all hc body hb ⟨strncpy title, clock 0, 0, 0, 0, 0, [], [], true⟩ [] 1 (by intro p hp; simp at hp; rw [hp])
  rw [e0, e2, List.map_nil]
  show Data.toJson _ = _
  rw [after, memsP_fields]
  simp only [Phase.data, Data.toJson, cstr_long h1 h2]
  rfl

/-- So does a key or a value of that length. -/
theorem stat_long_value (clock : Nat → Nat) (title k v : List UInt8) (own own' : List Mem) (ht : Short title)
    (h : (64 ≤ k.length ∧ 0 ∉ k) ∨ (Short k ∧ 64 ≤ v.length ∧ 0 ∉ v)) :
    report clock (run clock ([], 0) (.begin title own :: eventsAll [.log k v own'])) = .error .ub := by
  have e0 : run clock ([], 0) (.begin title own :: eventsAll [.log k v own']) =
      ([⟨strncpy title, clock 0, 0, 0, 0, 0, [(strncpy k, strncpy v)], [], true⟩], 1) := by
    show (logStat 0 k v own' (init title own (clock 0) []), 1) = _
    rw [init_ok title own _ (by intro p hp; cases hp)]
    unfold logStat
    simp only [topCur]
    rw [show ∀ (q : Phase) (s : Stack), Stat.setTrack false 0 (q :: s) = { q with track := false } :: s from fun _ _ => rfl, trackAll_off own' [] rfl]
    rfl
  rw [e0]
  show Data.toJson _ = _
  simp only [Phase.data, Data.toJson, cstr_short ht, Except.bind, statsJson]
  rcases h with ⟨h1, h2⟩ | ⟨h1, h2, h3⟩
  · rw [cstr_long h1 h2]
  · rw [cstr_short h1, cstr_long h2 h3]

/-- `log` resumes tracking: what is allocated after it counts, although tracking was paused. -/
theorem stat_paused_log (clock : Nat → Nat) (title k v : List UInt8) (own : List Mem) (n : Nat) :
    ((run clock ([], 0) [.begin title [], .pause, .log 0 k v own, .mem (.alloc n), .resume]).1.map fun p => p.cur) = [(n : Int)] := by
  show ((setTrack true 0 (track (.alloc n) (logStat 0 k v own (setTrack false 0 (init title [] (clock 0) []))))).map fun p => p.cur) = _
  rw [init_ok title [] _ (by intro p hp; cases hp)]
  unfold logStat
  simp only [topCur]
  rw [show ∀ (q : Phase) (s : Stack), Stat.setTrack false 0 (q :: s) = { q with track := false } :: s from fun _ _ => rfl]
  rw [show ∀ (q : Phase) (s : Stack), Stat.setTrack false 0 (q :: s) = { q with track := false } :: s from fun _ _ => rfl, trackAll_off own [] rfl]
  show [((0 : Int) + n)] = _
  rw [Int.zero_add]

/-- So does a phase which begins while tracking is paused. -/
theorem stat_paused_phase (clock : Nat → Nat) (title t : List UInt8) (own : List Mem) (n m : Nat) :
    ((run clock ([], 0) [.begin title [], .pause, .begin t own, .mem (.alloc n), .fin [], .mem (.alloc m), .resume]).1.map fun p => p.cur) = [(n + m : Int)] := by
  show ((setTrack true 0 (track (.alloc m) (finish [] (clock 2) (track (.alloc n) (init t own (clock 1) (setTrack false 0 (init title [] (clock 0) []))))))).map fun p => p.cur) = _
  rw [init_ok title [] _ (by intro p hp; cases hp)]
  unfold init
  simp only [topCur]
  rw [show ∀ (q : Phase) (s : Stack), Stat.setTrack false 0 (q :: s) = { q with track := false } :: s from fun _ _ => rfl]
  rw [show ∀ (q : Phase) (s : Stack), Stat.setTrack false 0 (q :: s) = { q with track := false } :: s from fun _ _ => rfl, trackAll_off own [] rfl]
  show [((0 : Int) + n + m)] = _
  rw [Int.zero_add]

/-- `log_stat` of a phase around the current one counts the bytes of its own bookkeeping in the current phase, but not in the one which logs. -/
theorem stat_outer_log (clock : Nat → Nat) (title t k v : List UInt8) (n : Nat) :
    ((run clock ([], 0) [.begin title [], .begin t [], .log 1 k v [.alloc n]]).1.map fun p => p.cur) = [(n : Int), 0] := by
  show ((logStat 1 k v [.alloc n] (init t [] (clock 1) (init title [] (clock 0) []))).map fun p => p.cur) = _
  rw [init_ok title [] _ (by intro p hp; cases hp), init_ok t [] _ (by intro p hp; simp at hp; rw [hp])]
  show [((0 : Int) + n), 0] = _
  rw [Int.zero_add]

/-! ## Examples -/

/-- a program with a nested phase, a pause and logged values -/
def demo : List Act :=
  [.mem (.alloc 10), .log (bytes "n") (bytes "7") [.alloc 144], .phase (bytes "inner") [.alloc 300] [] [.mem (.alloc 5), .mem (.free 5), .quiet [.alloc 1000]], .mem (.free 4)]

def demoTimes : Nat → Nat := fun i => 100 + i

example : Short (bytes "root") ∧ NamesAll Short demo := by
  simp only [NamesAll, demo, Act.Names, Short]
  decide +kernel

example : countedAll demo = [.alloc 10, .alloc 5, .free 5, .free 4] := rfl

example : ∃ p, (run demoTimes ([], 0) (.begin (bytes "root") [.alloc 300] :: eventsAll demo)).1 = [p] ∧ p.cur = 6 ∧ p.peak = 15 := ⟨_, rfl, rfl, rfl⟩

/-- a history with a phase inside another one, then split -/
example : (run demoTimes ([], 0) [.begin (bytes "a") [], .mem (.alloc 3), .begin (bytes "b") [], .mem (.alloc 4)]).1 ≠ [] ∧
    ((run demoTimes ([], 0) [.begin (bytes "a") [], .mem (.alloc 3), .begin (bytes "b") [], .mem (.alloc 4), .split (bytes "c") [] []]).1.map fun p => (p.off, p.cur)) = [(7, 0), (0, 7)] := by
  constructor
  · intro h; cases h
  · rfl

example : 64 ≤ (List.replicate 64 (97 : UInt8)).length ∧ (0 : UInt8) ∉ List.replicate 64 (97 : UInt8) := by decide +kernel

end Tdc.Stat
