import Verif.Spec.Stat

namespace Tdc.Stat

open Json

/-! ## Memory -/

/-- the effect on a phase which counts -/
def memP (m : Mem) (p : Phase) : Phase :=
  match m with
  | .alloc n => { p with cur := p.cur + n, peak := max p.peak (p.cur + n) }
  | .free n => { p with cur := p.cur - n }

def memsP (ms : List Mem) (p : Phase) : Phase := ms.foldl (fun p m => memP m p) p

theorem memP_track (m : Mem) (p : Phase) : (memP m p).track = p.track := by cases m <;> rfl

theorem memsP_track (ms : List Mem) (p : Phase) : (memsP ms p).track = p.track := by
  induction ms generalizing p with
  | nil => rfl
  | cons m ms ih => show (memsP ms (memP m p)).track = _; rw [ih, memP_track]

/-- all phases count -/
def AllOn (s : Stack) : Prop := ∀ p ∈ s, p.track = true

theorem track_on (m : Mem) : ∀ {s : Stack}, AllOn s → track m s = s.map (memP m)
  | [], _ => rfl
  | p :: s, h => by
    unfold track
    rw [if_pos (h p (by simp)), track_on m (fun q hq => h q (by simp [hq]))]
    cases m <;> rfl

theorem AllOn.map {s : Stack} (h : AllOn s) (ms : List Mem) : AllOn (s.map (memsP ms)) := by
  intro p hp
  obtain ⟨q, hq, rfl⟩ := List.mem_map.1 hp
  rw [memsP_track]; exact h q hq

theorem trackAll_on : ∀ (ms : List Mem) {s : Stack}, AllOn s → trackAll ms s = s.map (memsP ms)
  | [], s, _ => by
    show s = s.map (memsP [])
    rw [show memsP [] = id from rfl, List.map_id]
  | m :: ms, s, h => by
    show trackAll ms (track m s) = _
    rw [track_on m h, show memP m = memsP [m] from rfl, trackAll_on ms (h.map [m]), List.map_map]
    rfl

theorem track_off (m : Mem) {p : Phase} (s : Stack) (h : p.track = false) : track m (p :: s) = p :: s := by
  unfold track
  rw [if_neg (by simp [h])]

theorem trackAll_off (ms : List Mem) {p : Phase} (s : Stack) (h : p.track = false) : trackAll ms (p :: s) = p :: s := by
  induction ms with
  | nil => rfl
  | cons m ms ih =>
    show trackAll ms (track m (p :: s)) = _
    rw [track_off m s h, ih]

theorem total_append (a b : List Mem) : total (a ++ b) = total a + total b := by
  induction a with
  | nil => simp [total]
  | cons m a ih => cases m <;> simp only [List.cons_append, total, ih] <;> omega

theorem memsP_cur (ms : List Mem) (p : Phase) : (memsP ms p).cur = p.cur + total ms := by
  induction ms generalizing p with
  | nil => simp [memsP, total]
  | cons m ms ih =>
    show (memsP ms (memP m p)).cur = _
    rw [ih]
    cases m <;> simp only [memP, total] <;> omega

/-- the peak seen from a phase that holds `cur` bytes -/
theorem memsP_peak (ms : List Mem) (p : Phase) (h : p.cur ≤ p.peak) : (memsP ms p).cur ≤ (memsP ms p).peak ∧
    (∀ k, p.cur + total (ms.take k) ≤ (memsP ms p).peak) ∧ p.peak ≤ (memsP ms p).peak ∧
    ((memsP ms p).peak = p.peak ∨ ∃ k, (memsP ms p).peak = p.cur + total (ms.take k)) := by
  induction ms generalizing p with
  | nil =>
    refine ⟨h, ?_, by simp [memsP], Or.inl rfl⟩
    intro k
    simp only [List.take_nil, total, memsP, List.foldl_nil]
    omega
  | cons m ms ih =>
    have hm : (memP m p).cur ≤ (memP m p).peak := by
      cases m <;> simp only [memP] <;> omega
    obtain ⟨h1, h2, h3, h4⟩ := ih (memP m p) hm
    have e : memsP (m :: ms) p = memsP ms (memP m p) := rfl
    rw [e]
    have hc : ∀ l, (memP m p).cur + total l = p.cur + total (m :: l) := by
      intro l; cases m <;> simp only [memP, total] <;> omega
    have hp : p.peak ≤ (memP m p).peak := by cases m <;> simp only [memP] <;> omega
    refine ⟨h1, ?_, by omega, ?_⟩
    · intro k
      rcases k with _ | k
      · simp only [List.take_zero, total]; omega
      · rw [List.take_succ_cons, ← hc]; exact h2 k
    · rcases h4 with h4 | ⟨k, h4⟩
      · have : (memP m p).peak = p.peak ∨ (memP m p).peak = (memP m p).cur := by
          cases m <;> simp only [memP]
          · omega
          · exact Or.inl trivial
        rcases this with h5 | h5
        · left; omega
        · right
          refine ⟨1, ?_⟩
          have := hc []
          simp only [total, Int.add_zero] at this
          rw [List.take_succ_cons, List.take_zero, ← this, h4, h5]
      · right
        exact ⟨k + 1, by rw [List.take_succ_cons, ← hc, h4]⟩

theorem memsP_append (a b : List Mem) (p : Phase) : memsP (a ++ b) p = memsP b (memsP a p) := by
  unfold memsP; rw [List.foldl_append]

theorem memsP_fields (ms : List Mem) (p : Phase) : memsP ms p = { p with cur := (memsP ms p).cur, peak := (memsP ms p).peak } := by
  induction ms generalizing p with
  | nil => rfl
  | cons m ms ih =>
    have e : memsP (m :: ms) p = memsP ms (memP m p) := rfl
    rw [e, ih (memP m p)]
    cases m <;> rfl

/-! ## The report of the data -/

theorem takeWhile_all {s t : List UInt8} (h : 0 ∉ s) : (s ++ 0 :: t).takeWhile (· ≠ 0) = s := by
  induction s with
  | nil => simp
  | cons c s ih =>
    simp only [List.mem_cons, not_or] at h
    rw [List.cons_append, List.takeWhile_cons, if_pos (by simpa using Ne.symm h.1), ih h.2]

theorem takeWhile_id {s : List UInt8} (h : 0 ∉ s) : s.takeWhile (· ≠ 0) = s := by
  induction s with
  | nil => rfl
  | cons c s ih =>
    have h1 : c ≠ 0 := fun e => h (by simp [e])
    have h2 : 0 ∉ s := fun e => h (by simp [e])
    rw [List.takeWhile_cons, if_pos (by simpa using h1), ih h2]

theorem cstr_short {s : List UInt8} (h : Short s) : cstr (strncpy s) = .ok s := by
  obtain ⟨h1, h2⟩ := h
  unfold cstr strncpy
  simp only [takeWhile_id h2, List.take_of_length_le (Nat.le_of_lt h1)]
  obtain ⟨n, hn⟩ : ∃ n, 64 - s.length = n + 1 := ⟨63 - s.length, by omega⟩
  rw [hn, List.replicate_succ, if_pos (by simp), takeWhile_all h2]

theorem cstr_long {s : List UInt8} (h : 64 ≤ s.length) (h0 : 0 ∉ s) : cstr (strncpy s) = .error .ub := by
  unfold cstr strncpy
  simp only [takeWhile_id h0]
  rw [if_neg]
  intro hc
  rw [List.length_take, show 64 - min 64 s.length = 0 by omega, List.replicate_zero, List.append_nil] at hc
  exact h0 (List.mem_of_mem_take hc)

theorem statJson_fields {α : Type} (a b : α) : setField (bytes "value") a (setField (bytes "key") b []) = [(bytes "key", b), (bytes "value", a)] := by
  have h1 : bytes "value" ≠ bytes "key" := by decide +kernel
  have h2 : slt (bytes "value") (bytes "key") = false := by decide +kernel
  simp only [setField, h1, h2, if_false, Bool.false_eq_true]

theorem toJson_fields {α : Type} (su st c pk o z a t : α) :
    setField (bytes "sub") su (setField (bytes "stats") st (setField (bytes "memFinal") c (setField (bytes "memPeak") pk
      (setField (bytes "memOff") o (setField (bytes "timeEnd") z (setField (bytes "timeStart") a (setField (bytes "title") t []))))))) =
    [(bytes "memFinal", c), (bytes "memOff", o), (bytes "memPeak", pk), (bytes "stats", st), (bytes "sub", su), (bytes "timeEnd", z), (bytes "timeStart", a), (bytes "title", t)] := by
  have h1 : bytes "timeStart" ≠ bytes "title" ∧ slt (bytes "timeStart") (bytes "title") = true := by decide +kernel
  have h2 : bytes "timeEnd" ≠ bytes "timeStart" ∧ slt (bytes "timeEnd") (bytes "timeStart") = true := by decide +kernel
  have h3 : bytes "memOff" ≠ bytes "timeEnd" ∧ slt (bytes "memOff") (bytes "timeEnd") = true := by decide +kernel
  have h4 : bytes "memPeak" ≠ bytes "memOff" ∧ slt (bytes "memPeak") (bytes "memOff") = false := by decide +kernel
  have h5 : bytes "memPeak" ≠ bytes "timeEnd" ∧ slt (bytes "memPeak") (bytes "timeEnd") = true := by decide +kernel
  have h6 : bytes "memFinal" ≠ bytes "memOff" ∧ slt (bytes "memFinal") (bytes "memOff") = true := by decide +kernel
  have h7 : bytes "stats" ≠ bytes "memFinal" ∧ slt (bytes "stats") (bytes "memFinal") = false := by decide +kernel
  have h8 : bytes "stats" ≠ bytes "memOff" ∧ slt (bytes "stats") (bytes "memOff") = false := by decide +kernel
  have h9 : bytes "stats" ≠ bytes "memPeak" ∧ slt (bytes "stats") (bytes "memPeak") = false := by decide +kernel
  have h10 : bytes "stats" ≠ bytes "timeEnd" ∧ slt (bytes "stats") (bytes "timeEnd") = true := by decide +kernel
  have g7 : bytes "sub" ≠ bytes "memFinal" ∧ slt (bytes "sub") (bytes "memFinal") = false := by decide +kernel
  have g8 : bytes "sub" ≠ bytes "memOff" ∧ slt (bytes "sub") (bytes "memOff") = false := by decide +kernel
  have g9 : bytes "sub" ≠ bytes "memPeak" ∧ slt (bytes "sub") (bytes "memPeak") = false := by decide +kernel
  have g10 : bytes "sub" ≠ bytes "timeEnd" ∧ slt (bytes "sub") (bytes "timeEnd") = true := by decide +kernel
  have g11 : bytes "sub" ≠ bytes "stats" ∧ slt (bytes "sub") (bytes "stats") = false := by decide +kernel
  simp only [setField, h1, h2, h3, h4, h5, h6, h7, h8, h9, h10, g7, g8, g9, g10, g11, if_false, if_true, Bool.false_eq_true, ne_eq]

theorem statsJson_ok : ∀ (l : List (List UInt8 × List UInt8)), (∀ e ∈ l, Short e.1 ∧ Short e.2) →
    statsJson (l.map fun e => (strncpy e.1, strncpy e.2)) = .ok (l.map fun e => .obj [(bytes "key", .str e.1), (bytes "value", .str e.2)])
  | [], _ => rfl
  | (k, v) :: l, h => by
    have := h (k, v) (by simp)
    simp only [List.map_cons, statsJson, cstr_short this.1, cstr_short this.2, Except.bind, statsJson_ok l (fun e he => h e (by simp [he])), statJson_fields]

theorem toJsonAll_append : ∀ {a b : List Data} {x y : List JV}, toJsonAll a = .ok x → toJsonAll b = .ok y → toJsonAll (a ++ b) = .ok (x ++ y)
  | [], b, x, y, h1, h2 => by
    simp only [toJsonAll, Except.ok.injEq] at h1; subst h1; exact h2
  | d :: a, b, x, y, h1, h2 => by
    rw [toJsonAll] at h1
    rcases hd : d.toJson with e | j
    · rw [hd] at h1; cases h1
    · rw [hd] at h1
      simp only [Except.bind] at h1
      rcases ha : toJsonAll a with e | z
      · rw [ha] at h1; cases h1
      · rw [ha] at h1
        simp only [Except.ok.injEq] at h1
        subst h1
        rw [List.cons_append, toJsonAll, hd]
        simp only [Except.bind, toJsonAll_append ha h2, List.cons_append]

/-! ## A program -/

mutual
theorem reports_lo {j : JV} {t : List UInt8} {off lo lo' hi : Int} (h : lo' ≤ lo) : ∀ (l : List Act), Reports j t off lo hi l → Reports j t off lo' hi l
  | l, hr => by
    rw [Reports] at hr ⊢
    obtain ⟨pk, st, sp, su, h1, h2, h3⟩ := hr
    exact ⟨pk, st, sp, su, h1, by omega, h3⟩
theorem subReports_lo {js : List JV} {off lo lo' hi : Int} (h : lo' ≤ lo) : ∀ (l : List Act), SubReports js off lo hi l → SubReports js off lo' hi l
  | [], hr => by rw [SubReports] at hr ⊢; exact ⟨hr.1, by omega⟩
  | .phase t o o' body :: l, hr => by
    rw [SubReports] at hr ⊢
    obtain ⟨j, js', mid, h1, h2, h3⟩ := hr
    exact ⟨j, js', mid, h1, reports_lo h body h2, h3⟩
  | .mem m :: l, hr => by rw [SubReports] at hr ⊢; exact subReports_lo h l hr
  | .quiet m :: l, hr => by rw [SubReports] at hr ⊢; exact subReports_lo h l hr
  | .log _ _ _ :: l, hr => by rw [SubReports] at hr ⊢; exact subReports_lo h l hr
end

theorem run_append (clock : Nat → Nat) (st : Stack × Nat) (a b : List Ev) : run clock st (a ++ b) = run clock (run clock st a) b := List.foldl_append

theorem names_logged {P : List UInt8 → Prop} : ∀ {l : List Act}, NamesAll P l → ∀ e ∈ logged l, P e.1 ∧ P e.2
  | [], _, e, he => by simp [logged] at he
  | .log k v _ :: l, h, e, he => by
    rw [NamesAll, Act.Names] at h
    rw [logged, List.mem_cons] at he
    rcases he with rfl | he
    · exact h.1
    · exact names_logged h.2 e he
  | .mem _ :: l, h, e, he => by rw [NamesAll] at h; exact names_logged h.2 e he
  | .quiet _ :: l, h, e, he => by rw [NamesAll] at h; exact names_logged h.2 e he
  | .phase _ _ _ _ :: l, h, e, he => by rw [NamesAll] at h; exact names_logged h.2 e he

/-- the phase after some actions -/
def after (p : Phase) (ms : List Mem) (lg : List (List UInt8 × List UInt8)) (ds : List Data) : Phase :=
  { memsP ms p with stats := p.stats ++ lg.map (fun e => (strncpy e.1, strncpy e.2)), sub := p.sub ++ ds }

theorem memsP_with (ms : List Mem) (q : Phase) (x : List (List UInt8 × List UInt8)) (y : List Data) :
    memsP ms { q with stats := x, sub := y } = { memsP ms q with stats := x, sub := y } := by
  induction ms generalizing q with
  | nil => rfl
  | cons m ms ih =>
    show memsP ms (memP m _) = { memsP ms (memP m q) with stats := x, sub := y }
    rw [← ih]
    cases m <;> rfl

theorem after_after (p : Phase) (A B : List Mem) (x y : List (List UInt8 × List UInt8)) (d e : List Data) :
    after (after p A x d) B y e = after p (A ++ B) (x ++ y) (d ++ e) := by
  unfold after
  rw [memsP_with, memsP_append]
  simp only [List.map_append, List.append_assoc]

theorem setTrack_on {p : Phase} (s : Stack) (h : p.track = true) : setTrack true 0 (setTrack false 0 (p :: s)) = p :: s := by
  cases p; simp only at h; subst h; rfl

theorem init_ok (t : List UInt8) (own : List Mem) (now : Nat) {s : Stack} (h : AllOn s) :
    init t own now s = ⟨strncpy t, now, 0, topCur s, 0, 0, [], [], true⟩ :: s := by
  match s with
  | [] => 
    have : trackAll own [] = [] := by
      unfold trackAll
      induction own with
      | nil => rfl
      | cons m ms ih => exact ih
    simp only [init, setTrack, this]
  | p :: s =>
    have hp := h p (by simp)
    unfold init
    simp only
    rw [show setTrack false 0 (p :: s) = { p with track := false } :: s from rfl, trackAll_off own s rfl]
    rw [show setTrack true 0 ({ p with track := false } :: s) = p :: s from setTrack_on s hp]

theorem peak_fresh {ms : List Mem} {p : Phase} (h1 : p.cur = 0) (h2 : p.peak = 0) : IsPeak (memsP ms p).peak ms ∧ (memsP ms p).cur = total ms := by
  obtain ⟨a, b, c, d⟩ := memsP_peak ms p (by omega)
  refine ⟨⟨?_, ?_⟩, by rw [memsP_cur, h1]; omega⟩
  · rcases d with d | ⟨k, d⟩
    · exact ⟨0, by rw [List.take_zero, d, h2]; rfl⟩
    · exact ⟨k, by rw [d, h1]; omega⟩
  · intro k
    have := b k
    omega

/-- the report of a phase which has just ended -/
theorem toJson_ok {clock : Nat → Nat} (hc : ∀ a b, a ≤ b → clock a ≤ clock b) {t : List UInt8} {o : Int} {i i' : Nat} {body : List Act} {ds : List Data} {js : List JV}
    {b : Bool} (ht : Short t) (hn : NamesAll Short body) (hi : i + 1 ≤ i') (hd : toJsonAll ds = .ok js) (hs : SubReports js 0 (clock (i + 1)) (clock i') body) :
    ∃ j, ({ after ⟨strncpy t, clock i, 0, o, 0, 0, [], [], true⟩ (countedAll body) (logged body) ds with stop := clock i', track := b } : Phase).data.toJson = .ok j ∧
      Reports j t o (clock i) (clock (i' + 1)) body := by
  obtain ⟨q1, q2⟩ := peak_fresh (ms := countedAll body) (p := ⟨strncpy t, clock i, 0, o, 0, 0, [], [], true⟩) rfl rfl
  have hst := statsJson_ok (logged body) (names_logged hn)
  have c1 := hc i (i + 1) (by omega)
  have c2 := hc i i' (by omega)
  have c3 := hc i' (i' + 1) (by omega)
  rw [after, memsP_fields]
  refine ⟨_, by
    simp only [Phase.data, Data.toJson, cstr_short ht, Except.bind, List.nil_append, hst, hd, toJson_fields, q2]; rfl, ?_⟩
  rw [Reports]
  exact ⟨_, _, _, js, q1, Int.le_refl _, by omega, by omega, subReports_lo (by omega) body hs, rfl⟩

mutual
theorem run_act {clock : Nat → Nat} (hc : ∀ a b, a ≤ b → clock a ≤ clock b) : ∀ (a : Act), a.Names Short → ∀ (p : Phase) (s : Stack) (i : Nat), AllOn (p :: s) →
    ∃ i' ds js, i ≤ i' ∧ run clock (p :: s, i) (events a) = (after p (counted a) (logged [a]) ds :: s.map (memsP (counted a)), i') ∧ toJsonAll ds = .ok js ∧
      ∀ js' hi l, SubReports js' (p.cur + total (counted a)) (clock i') hi l → SubReports (js ++ js') p.cur (clock i) hi (a :: l)
  | .mem m, _, p, s, i, h => by
    refine ⟨i, [], [], Nat.le_refl _, ?_, rfl, ?_⟩
    · show (track m (p :: s), i) = _
      rw [track_on m h, List.map_cons]
      simp only [after, logged, List.map_nil, List.append_nil, counted]
      cases m <;> rfl
    · intro js' hi l hs
      rw [SubReports]
      exact hs
  | .quiet ms, _, p, s, i, h => by
    refine ⟨i, [], [], Nat.le_refl _, ?_, rfl, ?_⟩
    · have hp := h p (by simp)
      have hr : ∀ (ms : List Mem) (st : Stack), run clock (st, i) (ms.map Ev.mem) = (trackAll ms st, i) := by
        intro ms
        induction ms with
        | nil => intro st; rfl
        | cons m ms ih => intro st; exact ih (track m st)
      rw [events, run_append, run_append]
      show run clock (run clock (setTrack false 0 (p :: s), i) (ms.map Ev.mem)) [Ev.resume] = _
      rw [hr, show setTrack false 0 (p :: s) = { p with track := false } :: s from rfl, trackAll_off ms s rfl]
      show (setTrack true 0 ({ p with track := false } :: s), i) = _
      rw [show setTrack true 0 ({ p with track := false } :: s) = p :: s from setTrack_on s hp]
      simp only [after, logged, List.map_nil, List.append_nil, counted]
      rw [show memsP [] = id from rfl, List.map_id]
      rfl
    · intro js' hi l hs
      rw [SubReports]
      simpa [counted, total] using hs
  | .log k v own, _, p, s, i, h => by
    refine ⟨i, [], [], Nat.le_refl _, ?_, rfl, ?_⟩
    · have hp := h p (by simp)
      show (logStat 0 k v own (p :: s), i) = _
      unfold logStat
      simp only []
      rw [show setTrack false 0 (p :: s) = { p with track := false } :: s from rfl, trackAll_off own s rfl]
      simp only [after, logged, List.map_nil, List.map_cons, List.append_nil, counted, List.modify_zero_cons]
      rw [show memsP [] = id from rfl, List.map_id]
      cases p; simp only at hp; subst hp; rfl
    · intro js' hi l hs
      rw [SubReports]
      simpa [counted, total] using hs
  | .phase t own own' body, hn, p, s, i, h => by
    rw [Act.Names] at hn
    have hp := h p (by simp)
    have hq : AllOn (⟨strncpy t, clock i, 0, p.cur, 0, 0, [], [], true⟩ :: p :: s) := by
      intro x hx
      rcases List.mem_cons.1 hx with rfl | hx
      · rfl
      · exact h x hx
    obtain ⟨i', ds, js, e1, e2, e3, e4⟩ := run_all hc body hn.2 ⟨strncpy t, clock i, 0, p.cur, 0, 0, [], [], true⟩ (p :: s) (i + 1) hq
    obtain ⟨j, j1, j2⟩ := toJson_ok hc (b := false) (o := p.cur) hn.1 hn.2 e1 e3 e4
    refine ⟨i' + 1, [({ after ⟨strncpy t, clock i, 0, p.cur, 0, 0, [], [], true⟩ (countedAll body) (logged body) ds with stop := clock i', track := false } : Phase).data],
      [j], by omega, ?_, by rw [toJsonAll, j1]; rfl, ?_⟩
    · rw [events, List.cons_append]
      show run clock (init t own (clock i) (p :: s), i + 1) (eventsAll body ++ [Ev.fin own']) = _
      rw [init_ok t own (clock i) h, run_append]
      simp only [topCur]
      rw [e2]
      show (finish own' (clock i') _, i' + 1) = _
      rw [List.map_cons]
      simp only [finish, addSub, counted, logged]
      rw [after, after, memsP_fields (countedAll body) p]
      simp only [List.map_nil, List.append_nil]
    · intro js' hi l hs
      rw [SubReports]
      exact ⟨j, js', clock (i' + 1), rfl, j2, hs⟩
theorem run_all {clock : Nat → Nat} (hc : ∀ a b, a ≤ b → clock a ≤ clock b) : ∀ (l : List Act), NamesAll Short l → ∀ (p : Phase) (s : Stack) (i : Nat), AllOn (p :: s) →
    ∃ i' ds js, i ≤ i' ∧ run clock (p :: s, i) (eventsAll l) = (after p (countedAll l) (logged l) ds :: s.map (memsP (countedAll l)), i') ∧ toJsonAll ds = .ok js ∧
      SubReports js p.cur (clock i) (clock i') l
  | [], _, p, s, i, _ => by
    refine ⟨i, [], [], Nat.le_refl _, ?_, rfl, by rw [SubReports]; exact ⟨rfl, Int.le_refl _⟩⟩
    simp only [after, logged, List.map_nil, List.append_nil, countedAll]
    rw [show memsP [] = id from rfl, List.map_id]
    rfl
  | a :: l, hn, p, s, i, h => by
    rw [NamesAll] at hn
    obtain ⟨i1, d1, j1, a1, a2, a3, a4⟩ := run_act hc a hn.1 p s i h
    have hon : AllOn (after p (counted a) (logged [a]) d1 :: s.map (memsP (counted a))) := by
      intro x hx
      rcases List.mem_cons.1 hx with rfl | hx
      · show (memsP (counted a) p).track = true
        rw [memsP_track]; exact h p (by simp)
      · exact AllOn.map (s := s) (fun q hq => h q (by simp [hq])) _ x hx
    obtain ⟨i2, d2, j2, b1, b2, b3, b4⟩ := run_all hc l hn.2 _ _ i1 hon
    refine ⟨i2, d1 ++ d2, j1 ++ j2, by omega, ?_, toJsonAll_append a3 b3, a4 j2 _ l ?_⟩
    · rw [eventsAll, run_append, a2, b2, countedAll]
      congr 1
      congr 1
      · rw [after_after]
        have : logged (a :: l) = logged [a] ++ logged l := by cases a <;> rfl
        rw [this]
      · rw [List.map_map]
        congr 1
        funext q
        exact (memsP_append _ _ q).symm
    · have : (after p (counted a) (logged [a]) d1).cur = p.cur + total (counted a) := memsP_cur _ _
      rw [this] at b4
      exact b4
end

end Tdc.Stat
