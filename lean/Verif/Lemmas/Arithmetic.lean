import Verif.Model.Arithmetic
import Verif.Lemmas.BitIO
import Verif.Lemmas.IntCodes
import Mathlib.Tactic.Linarith

namespace Tdc
namespace Arith

/-- `2^64 - 1` -/
abbrev M64 : Nat := ulongMax

theorem M64_eq : M64 = 2 ^ 64 - 1 := by
  unfold M64 ulongMax
  rfl

@[simp] theorem bind_ok {α β : Type} (a : α) (f : α → Res β) : Except.bind (Except.ok a : Res α) f = f a := rfl

/-- The intervals: monotone, the last bound is `L`. -/
structure Bounds (C : Nat → Nat) (L : Nat) : Prop where
  mono : ∀ i j, i ≤ j → C i ≤ C j
  top : ∀ i, i ≤ 255 → C i ≤ L
  last : C 255 = L
  pos : 0 < L
  small : L < 2 ^ 31

/-- symbol `v` has a non-empty interval -/
def Sym (C : Nat → Nat) (v : Nat) : Prop := v ≤ 255 ∧ before C v < C v

def nlb (C : Nat → Nat) (L lb ub v : Nat) : Nat := lb + (ub - lb) / L * before C v
def nub (C : Nat → Nat) (L lb ub v : Nat) : Nat := lb + (ub - lb) / L * C v

theorem rng_eq {lb ub : Nat} (h : lb ≤ ub) (hu : ub ≤ M64) : rng lb ub = ub - lb := by
  unfold rng u64
  rw [M64_eq] at hu
  omega

theorem off_eq {r L x : Nat} (hL : 0 < L) (hr : L ≤ r) (hx : x ≤ L) (hm : r ≤ M64) (hs : L < 2 ^ 31) : off r L x = r / L * x := by
  unfold off
  have h1 : r / L * x ≤ r / L * L := Nat.mul_le_mul_left _ hx
  have h2 : r / L * L ≤ r := Nat.div_mul_le_self r L
  by_cases h : r ≤ L
  · rw [if_pos h]
    have e : r = L := by omega
    subst e
    have hx2 : r * x < 2 ^ 64 := by
      have := Nat.mul_le_mul (Nat.le_of_lt hs) (Nat.le_trans hx (Nat.le_of_lt hs))
      have h3 : (2:Nat) ^ 31 * 2 ^ 31 < 2 ^ 64 := by norm_num
      omega
    rw [u64, Nat.mod_eq_of_lt hx2, Nat.mul_div_cancel_left _ hL, Nat.div_self hL, one_mul]
  · rw [if_neg h, u64]
    apply Nat.mod_eq_of_lt
    rw [M64_eq] at hm
    omega

theorem before_le {C : Nat → Nat} {L : Nat} (B : Bounds C L) (v : Nat) (hv : v ≤ 255) : before C v ≤ L := by
  unfold before
  split
  · omega
  · exact B.top _ (by omega)

theorem nub_le {C : Nat → Nat} {L : Nat} (B : Bounds C L) {lb ub v : Nat} (hv : v ≤ 255) (h : lb ≤ ub) : nub C L lb ub v ≤ ub := by
  unfold nub
  have h1 : (ub - lb) / L * C v ≤ (ub - lb) / L * L := Nat.mul_le_mul_left _ (B.top v hv)
  have h2 : (ub - lb) / L * L ≤ ub - lb := Nat.div_mul_le_self _ L
  omega

theorem nlb_lt {C : Nat → Nat} {L : Nat} (B : Bounds C L) {lb ub v : Nat} (hv : Sym C v) (h : L ≤ ub - lb) :
    nlb C L lb ub v < nub C L lb ub v := by
  unfold nlb nub
  have h1 : 0 < (ub - lb) / L := Nat.div_pos h B.pos
  have := Nat.mul_lt_mul_of_pos_left hv.2 h1
  omega

theorem narrow_eq {e : Enc} {L : Nat} (B : Bounds e.C L) {v : Nat} (hv : v ≤ 255) (h : e.lb ≤ e.ub) (hu : e.ub ≤ M64) (hr : L ≤ e.ub - e.lb) :
    e.narrow v = .ok { e with lb := nlb e.C L e.lb e.ub v, ub := nub e.C L e.lb e.ub v } := by
  unfold Enc.narrow
  have hp := B.pos
  rw [B.last, if_neg (by omega), rng_eq h hu]
  have a1 : e.ub - e.lb ≤ M64 := by omega
  rw [off_eq B.pos hr (B.top v hv) a1 B.small]
  have b1 := nub_le B (lb := e.lb) (ub := e.ub) hv h
  unfold nub at b1
  have M := M64_eq
  have b2 : u64 (e.lb + (e.ub - e.lb) / L * e.C v) = e.lb + (e.ub - e.lb) / L * e.C v := by
    rw [u64]
    exact Nat.mod_eq_of_lt (by omega)
  rw [b2]
  have b3 : (if v ≠ 0 then u64 (e.lb + off (e.ub - e.lb) L (e.C (v - 1))) else e.lb) = nlb e.C L e.lb e.ub v := by
    unfold nlb before
    by_cases hz : v = 0
    · simp [hz]
    · rw [if_pos hz, if_neg hz, off_eq B.pos hr (B.top _ (by omega)) a1 B.small, u64]
      apply Nat.mod_eq_of_lt
      have : (e.ub - e.lb) / L * e.C (v - 1) ≤ (e.ub - e.lb) / L * e.C v := Nat.mul_le_mul_left _ (B.mono _ _ (by omega))
      omega
  rw [b3]
  rfl

/-- The codes of a sequence of symbols from given bounds, in mathematical terms. -/
def codes (C : Nat → Nat) (L : Nat) : Nat → Nat → List Nat → List Nat
  | lb, _, [] => [lb]
  | lb, ub, v :: vs =>
    if ub - lb < L then lb :: codes C L (nlb C L 0 M64 v) (nub C L 0 M64 v) vs else codes C L (nlb C L lb ub v) (nub C L lb ub v) vs

theorem codes_head {C : Nat → Nat} {L : Nat} (B : Bounds C L) : ∀ (vs : List Nat) (lb ub : Nat), (∀ v ∈ vs, Sym C v) → lb < ub →
    ∃ code rest, codes C L lb ub vs = code :: rest ∧ lb ≤ code ∧ code < ub
  | [], lb, ub, _, h => ⟨lb, [], rfl, Nat.le_refl _, h⟩
  | v :: vs, lb, ub, hv, h => by
    unfold codes
    split
    · exact ⟨lb, _, rfl, Nat.le_refl _, h⟩
    · rename_i hr
      have s := hv v (List.mem_cons_self ..)
      obtain ⟨code, rest, e, a, b⟩ := codes_head B vs _ _ (fun w hw => hv w (List.mem_cons_of_mem _ hw)) (nlb_lt B s (by omega : L ≤ ub - lb))
      refine ⟨code, rest, e, ?_, ?_⟩
      · unfold nlb at a
        exact Nat.le_trans (Nat.le_add_right _ _) a
      · exact Nat.lt_of_lt_of_le b (nub_le B s.1 (by omega))

theorem codes_lt {C : Nat → Nat} {L : Nat} (B : Bounds C L) : ∀ (vs : List Nat) (lb ub : Nat), (∀ v ∈ vs, Sym C v) → lb < ub → ub ≤ M64 →
    ∀ x ∈ codes C L lb ub vs, x < M64
  | [], lb, ub, _, h, hu => by
    intro x hx
    simp only [codes, List.mem_singleton] at hx
    omega
  | v :: vs, lb, ub, hv, h, hu => by
    have s := hv v (List.mem_cons_self ..)
    have hs := B.small
    have hM : L ≤ M64 - 0 := by rw [M64_eq]; omega
    intro x hx
    unfold codes at hx
    split at hx
    · rcases List.mem_cons.1 hx with rfl | hx
      · omega
      · exact codes_lt B vs _ _ (fun w hw => hv w (List.mem_cons_of_mem _ hw)) (nlb_lt B s hM) (nub_le B s.1 (Nat.zero_le _)) x hx
    · exact codes_lt B vs _ _ (fun w hw => hv w (List.mem_cons_of_mem _ hw)) (nlb_lt B s (by omega)) (Nat.le_trans (nub_le B s.1 (by omega)) hu) x hx

/-! ## the encoder -/

theorem codeBits_append (a b : List Nat) : codeBits (a ++ b) = codeBits a ++ codeBits b := by simp [codeBits]

theorem step_lit {e e' : Enc} {v : Nat} {cs : List Nat} (h : e.literal v = .ok (cs, e')) : e.step (Rng.literal, v) = .ok (codeBits cs, e') := by
  rw [Enc.step, if_pos rfl, h]
  rfl

theorem literal_of {e e' : Enc} {v : Nat} (h : e.refresh.2.bump.narrow v = .ok e') :
    e.literal v = .ok (e.refresh.1 ++ e'.finish, e') := by
  rw [Enc.literal, h]
  rfl

theorem run_cons' {e e' : Enc} {t : Token} {b : List Bool} {ts : List Token} {bits : List Bool} (hs : e.step t = .ok (b, e')) (hr : e'.run ts = .ok bits) :
    e.run (t :: ts) = .ok (b ++ bits) := by
  rw [Enc.run, hs, bind_ok, hr]
  rfl

theorem run_cons {e e' : Enc} {v : Nat} {cs : List Nat} {ts : List Token} {bits : List Bool} (h : e.literal v = .ok (cs, e')) (hr : e'.run ts = .ok bits) :
    e.run ((Rng.literal, v) :: ts) = .ok (codeBits cs ++ bits) := run_cons' (step_lit h) hr

theorem run_eq {L : Nat} : ∀ (vs : List Nat) (e : Enc), Bounds e.C L → e.minRange = L → (∀ v ∈ vs, Sym e.C v) → e.lb < e.ub → e.ub ≤ M64 → vs ≠ [] →
    e.counter + vs.length = e.count → e.count < 2 ^ 32 →
    e.run (vs.map fun v => (Rng.literal, v)) = .ok (codeBits (codes e.C L e.lb e.ub vs ++ [M64]))
  | [], _, _, _, _, _, _, h, _, _ => absurd rfl h
  | v :: vs, e, B, hm, hv, hl, hu, _, hc, h32 => by
    have s := hv v (List.mem_cons_self ..)
    have hs := B.small
    have hM : L ≤ M64 - 0 := by rw [M64_eq]; omega
    have hc' : e.counter + (vs.length + 1) = e.count := hc
    have hk : u32 (e.counter + 1) = e.counter + 1 := by
      rw [u32]
      exact Nat.mod_eq_of_lt (by omega)
    -- bounds after the refresh
    have key : ∃ lb ub, lb < ub ∧ ub ≤ M64 ∧ L ≤ ub - lb ∧ e.refresh.2 = { e with lb := lb, ub := ub } ∧
        codes e.C L e.lb e.ub (v :: vs) = e.refresh.1 ++ codes e.C L (nlb e.C L lb ub v) (nub e.C L lb ub v) vs := by
      unfold Enc.refresh
      rw [rng_eq (by omega) hu]
      by_cases hr : e.ub - e.lb < L
      · have hr' : e.ub - e.lb < e.minRange := by omega
        refine ⟨0, M64, by rw [M64_eq]; decide, Nat.le_refl _, hM, by rw [if_pos hr'], ?_⟩
        simp only [codes]
        rw [if_pos hr, if_pos hr', List.singleton_append]
      · have hr' : ¬ e.ub - e.lb < e.minRange := by omega
        refine ⟨e.lb, e.ub, hl, hu, by omega, by rw [if_neg hr'], ?_⟩
        simp only [codes]
        rw [if_neg hr, if_neg hr', List.nil_append]
    obtain ⟨lb, ub, k1, k2, k3, k4, k5⟩ := key
    have hlit : e.literal v = .ok (e.refresh.1 ++ (if e.counter + 1 = e.count then [nlb e.C L lb ub v, M64] else []),
        { e with lb := nlb e.C L lb ub v, ub := nub e.C L lb ub v, counter := e.counter + 1 }) := by
      have hn := narrow_eq (e := { e with lb := lb, ub := ub, counter := e.counter + 1 }) (L := L) B s.1 (Nat.le_of_lt k1) k2 k3
      refine literal_of (e' := { e with lb := nlb e.C L lb ub v, ub := nub e.C L lb ub v, counter := e.counter + 1 }) ?_
      rw [k4, Enc.bump]
      simp only [hk]
      exact hn
    rw [k5, List.map_cons]
    cases vs with
    | nil =>
      simp only [List.length_nil] at hc'
      rw [if_pos (by omega)] at hlit
      rw [List.map_nil, run_cons (ts := []) hlit (by rw [Enc.run]), List.append_nil, List.append_assoc, codes, List.singleton_append]
    | cons w vs =>
      simp only [List.length_cons] at hc'
      rw [if_neg (by omega), List.append_nil] at hlit
      have ih := run_eq (w :: vs) { e with lb := nlb e.C L lb ub v, ub := nub e.C L lb ub v, counter := e.counter + 1 } B hm
        (fun x hx => hv x (List.mem_cons_of_mem _ hx)) (nlb_lt B s k3) (Nat.le_trans (nub_le B s.1 (Nat.le_of_lt k1)) k2) (by simp)
        (by simp only [List.length_cons]; omega) h32
      rw [run_cons hlit ih, List.append_assoc, codeBits_append e.refresh.1]

/-! ## the decoder -/

theorem before_succ (C : Nat → Nat) (a : Nat) : before C (a + 1) = C a := by simp [before]

/-- The search finds the symbol whose interval contains the code. -/
theorem search_eq {C : Nat → Nat} {L : Nat} (B : Bounds C L) {code lb ub v : Nat} (hlu : lb ≤ ub) (hu : ub ≤ M64) (hr : L ≤ ub - lb)
    (h1 : nlb C L lb ub v ≤ code) (h2 : code < nub C L lb ub v) : ∀ (n a u : Nat), a ≤ v → v < a + n → a + n ≤ 256 →
    search code lb (ub - lb) L (book C a n) (lb + (ub - lb) / L * before C a) u = (some v, nlb C L lb ub v, nub C L lb ub v)
  | 0, a, u, h, h', _ => by omega
  | n + 1, a, u, h, h', h3 => by
    have hv : before C v ≠ C v := by
      intro e
      unfold nlb at h1
      unfold nub at h2
      rw [e] at h1
      omega
    have b1 := nub_le B (lb := lb) (ub := ub) (v := a) (by omega) hlu
    unfold nub at b1
    have M := M64_eq
    have hub : u64 (lb + off (ub - lb) L (C a)) = lb + (ub - lb) / L * C a := by
      rw [off_eq B.pos hr (B.top a (by omega)) (by omega) B.small, u64]
      exact Nat.mod_eq_of_lt (by omega)
    by_cases hav : a = v
    · subst hav
      unfold book
      rw [if_pos hv]
      unfold search
      simp only [hub]
      unfold nub at h2
      rw [if_pos h2]
      rfl
    · have hC : C a ≤ before C v := by
        have : before C v = C (v - 1) := by unfold before; rw [if_neg (by omega)]
        rw [this]
        exact B.mono _ _ (by omega)
      have ih := fun u => search_eq B hlu hu hr h1 h2 n (a + 1) u (by omega) (by omega) (by omega)
      rw [before_succ] at ih
      unfold book
      by_cases hb : before C a ≠ C a
      · rw [if_pos hb]
        unfold search
        simp only [hub]
        have : ¬ code < lb + (ub - lb) / L * C a := by
          have := Nat.mul_le_mul_left ((ub - lb) / L) hC
          unfold nlb at h1
          omega
        rw [if_neg this]
        exact ih _
      · rw [if_neg hb]
        have hb' : before C a = C a := by simpa using hb
        rw [hb']
        exact ih _

theorem blockLoop_eq {C : Nat → Nat} {L : Nat} (B : Bounds C L) : ∀ (vs : List Nat) (lb ub code : Nat) (rest : List Nat),
    (∀ v ∈ vs, Sym C v) → lb < ub → ub ≤ M64 → codes C L lb ub vs = code :: rest →
    ∃ vs1 vs2, vs = vs1 ++ vs2 ∧ blockLoop (book C 0 256) L L code vs.length lb ub = (vs1, vs1.length) ∧
      (L ≤ ub - lb → vs ≠ [] → vs1 ≠ []) ∧ rest = (if vs2 = [] then [] else codes C L 0 M64 vs2)
  | [], lb, ub, code, rest, _, hl, hu, hc => by
    refine ⟨[], [], rfl, rfl, fun _ h => absurd rfl h, ?_⟩
    simp only [codes, List.cons.injEq] at hc
    simp [← hc.2]
  | v :: vs, lb, ub, code, rest, hv, hl, hu, hc => by
    have s := hv v (List.mem_cons_self ..)
    have hs := B.small
    have hM : ¬ M64 - 0 < L := by rw [M64_eq]; omega
    by_cases hr : ub - lb < L
    · refine ⟨[], v :: vs, rfl, ?_, fun h => by omega, ?_⟩
      · simp only [List.length_cons, blockLoop]
        rw [rng_eq (by omega) hu, if_neg (by omega)]
        rfl
      · simp only [codes] at hc
        rw [if_pos hr] at hc
        simp only [List.cons.injEq] at hc
        rw [if_neg (by simp)]
        simp only [codes]
        rw [if_neg hM]
        exact hc.2.symm
    · have hc0 := hc
      simp only [codes] at hc
      rw [if_neg hr] at hc
      have hv' : ∀ w ∈ vs, Sym C w := fun w hw => hv w (List.mem_cons_of_mem _ hw)
      have hlt := nlb_lt B s (by omega : L ≤ ub - lb)
      obtain ⟨code', rest', e, c1, c2⟩ := codes_head B vs _ _ hv' hlt
      rw [e] at hc
      obtain ⟨rfl, rfl⟩ := List.cons.inj hc
      have hub := Nat.le_trans (nub_le B s.1 (by omega : lb ≤ ub)) hu
      obtain ⟨vs1, vs2, i1, i2, _, i4⟩ := blockLoop_eq B vs _ _ _ _ hv' hlt hub e
      refine ⟨v :: vs1, vs2, by rw [i1]; rfl, ?_, fun _ _ => by simp, i4⟩
      have hse := search_eq B (Nat.le_of_lt hl) hu (by omega) c1 c2 256 0 ub (Nat.zero_le _) (by have := s.1; omega) (Nat.le_refl _)
      have hb0 : before C 0 = 0 := rfl
      rw [hb0, Nat.mul_zero, Nat.add_zero] at hse
      simp only [List.length_cons, blockLoop]
      rw [rng_eq (by omega) hu, if_pos (by omega), hse]
      simp only [i2]
      rfl

/-- The last entry of the code book is `L`. -/
theorem book_last {C : Nat → Nat} {L : Nat} (B : Bounds C L) : ∀ (n a : Nat), a + n = 256 → before C a < L →
    ∃ c, (book C a n).getLast? = some (c, L)
  | 0, a, h, hb => by
    have : a = 256 := by omega
    subst this
    have := B.last
    unfold before at hb
    rw [if_neg (by omega)] at hb
    have e : 256 - 1 = 255 := rfl
    rw [e] at hb
    omega
  | n + 1, a, h, hb => by
    have ih := book_last B n (a + 1) (by omega)
    rw [before_succ] at ih
    unfold book
    by_cases hc : before C a ≠ C a
    · rw [if_pos hc]
      by_cases hl : C a < L
      · obtain ⟨c, e⟩ := ih hl
        exact ⟨c, by rw [List.getLast?_cons, e]; rfl⟩
      · have hl' : C a = L := Nat.le_antisymm (B.top a (by omega)) (by omega)
        have hnil : ∀ (m b : Nat), a + 1 ≤ b → b + m ≤ 256 → book C b m = [] := by
          intro m
          induction m with
          | zero => intro b _ _; rfl
          | succ m im =>
            intro b h1 h2
            have e1 : before C b = L := by
              unfold before
              rw [if_neg (by omega)]
              exact Nat.le_antisymm (B.top _ (by omega)) (hl' ▸ B.mono a _ (by omega))
            have e2 : C b = L := Nat.le_antisymm (B.top _ (by omega)) (hl' ▸ B.mono a _ (by omega))
            unfold book
            rw [if_neg (by simp [e1, e2])]
            exact im _ (by omega) (by omega)
        rw [hnil n (a + 1) (Nat.le_refl _) (by omega), hl']
        exact ⟨a, rfl⟩
    · rw [if_neg hc]
      have : before C a = C a := by simpa using hc
      exact ih (this ▸ hb)

theorem codeBits_cons (x : Nat) (xs : List Nat) : codeBits (x :: xs) = writeInt x 64 ++ codeBits xs := rfl

/-- The state of the decoder with the literals `vs` still to come. -/
structure Inv (C : Nat → Nat) (L : Nat) (d : Dec) (vs1 vs2 : List Nat) : Prop where
  lits : d.lits = book C 0 256
  mr : d.minRange = L
  le : d.read ≤ d.decoded.length
  ne : vs1 ≠ []
  dec : d.decoded.drop d.read = vs1
  cnt : d.count - d.counter = vs2.length
  bits : d.bits = codeBits ((if vs2 = [] then [] else codes C L 0 M64 vs2) ++ [M64])
  syms : ∀ v ∈ vs2, Sym C v

theorem next_eq {C : Nat → Nat} {L : Nat} (B : Bounds C L) (d : Dec) (vs : List Nat) (hl : d.lits = book C 0 256) (hm : d.minRange = L)
    (hc : d.count - d.counter = vs.length) (hs : ∀ v ∈ vs, Sym C v) (hne : vs ≠ []) (hb : d.bits = codeBits (codes C L 0 M64 vs ++ [M64])) :
    ∃ d' vs1 vs2, d.next = .ok d' ∧ vs = vs1 ++ vs2 ∧ Inv C L d' vs1 vs2 ∧ d'.read = 0 := by
  have hsm := B.small
  have hp := B.pos
  have hM : L ≤ M64 - 0 := by rw [M64_eq]; omega
  obtain ⟨code, rest, e, c1, c2⟩ := codes_head B vs 0 M64 hs (by rw [M64_eq]; decide)
  obtain ⟨vs1, vs2, i1, i2, i3, i4⟩ := blockLoop_eq B vs 0 M64 code rest hs (by rw [M64_eq]; decide) (Nat.le_refl _) e
  obtain ⟨c, hlast⟩ := book_last B 256 0 rfl (by simpa [before] using B.pos)
  have hrd : rdInt 64 64 d.bits = (code, codeBits (rest ++ [M64])) := by
    rw [hb, e, List.cons_append, codeBits_cons]
    exact rdInt_writeInt 64 code 64 _ (by rw [M64_eq] at c2; omega) (by rw [M64_eq] at c2; omega)
  refine ⟨{ d with bits := codeBits (rest ++ [M64]), decoded := vs1, counter := d.counter + vs1.length, read := 0 }, vs1, vs2, ?_, i1, ?_, rfl⟩
  · unfold Dec.next
    simp only [hrd]
    have hne' : noDummy code = true := by
      rw [noDummy, bne_iff_ne]
      exact Nat.ne_of_lt c2
    rw [if_pos hne']
    unfold Dec.block
    simp only [hl, hlast]
    rw [if_neg (by omega)]
    simp only [hm, hc]
    rw [i2]
  · refine ⟨hl, hm, Nat.zero_le _, i3 hM hne, rfl, ?_, by rw [← i4], fun v hv => hs v (by rw [i1]; exact List.mem_append_right _ hv)⟩
    show d.count - (d.counter + vs1.length) = vs2.length
    have := congrArg List.length i1
    rw [List.length_append] at this
    omega

theorem dummy_next (d : Dec) (h : d.bits = codeBits [M64]) : d.next = .ok { d with bits := [] } := by
  have hrd : rdInt 64 64 d.bits = (M64, []) := by
    rw [h]
    exact rdInt_writeInt 64 M64 64 [] (by rw [M64_eq]; decide) (by rw [M64_eq]; decide)
  unfold Dec.next
  simp only [hrd]
  rw [if_neg (by simp [noDummy])]

theorem codeBits_ne (xs : List Nat) (x : Nat) : codeBits (xs ++ [x]) ≠ [] := by
  intro h
  have := congrArg List.length h
  simp [codeBits, writeInt_length] at this

attribute [local irreducible] Dec.next

/-- One literal of the loop. -/
theorem literal_eq {C : Nat → Nat} {L : Nat} (B : Bounds C L) (d : Dec) (v : Nat) (vs1 vs2 : List Nat) (I : Inv C L d (v :: vs1) vs2) :
    (vs1 = [] → vs2 = [] → ∃ d', d.literal = .ok (v, d') ∧ d'.bits = []) ∧
    (vs1 ++ vs2 ≠ [] → ∃ d' ws1 ws2, d.literal = .ok (v, d') ∧ vs1 ++ vs2 = ws1 ++ ws2 ∧ Inv C L d' ws1 ws2) := by
  have hdl : d.read < d.decoded.length := by
    by_contra h
    have hd := I.dec
    rw [List.drop_eq_nil_of_le (by omega)] at hd
    cases hd
  have hdrop := I.dec
  rw [List.drop_eq_getElem_cons hdl] at hdrop
  obtain ⟨g1, g2⟩ := List.cons.inj hdrop
  have hp : d.prepare = .ok d := by
    unfold Dec.prepare
    rw [if_neg (by omega)]
  have hcur : d.cur = .ok v := by
    unfold Dec.cur
    rw [if_neg (by omega), List.getElem?_eq_getElem hdl, g1]
  have hlen := congrArg List.length g2
  rw [List.length_drop] at hlen
  have hlit : d.literal = ({ d with read := d.read + 1 } : Dec).after.bind fun d => .ok (v, d) := by
    rw [Dec.literal, hp, bind_ok, hcur, bind_ok]
  constructor
  · rintro rfl rfl
    have ha : ({ d with read := d.read + 1 } : Dec).after = .ok { d with read := d.read + 1, bits := [] } := by
      unfold Dec.after
      simp only [List.length_nil] at hlen
      rw [if_pos (show d.read + 1 = d.decoded.length by omega)]
      exact dummy_next _ (by simpa using I.bits)
    rw [hlit, ha, bind_ok]
    exact ⟨_, rfl, rfl⟩
  · intro hne
    cases vs1 with
    | nil =>
      have hne2 : vs2 ≠ [] := by simpa using hne
      have hb := I.bits
      rw [if_neg hne2] at hb
      obtain ⟨d', ws1, ws2, e1, e2, e3, _⟩ := next_eq B { d with read := d.read + 1 } vs2 I.lits I.mr I.cnt I.syms hne2 hb
      have ha : ({ d with read := d.read + 1 } : Dec).after = .ok d' := by
        unfold Dec.after
        simp only [List.length_nil] at hlen
        rw [if_pos (show d.read + 1 = d.decoded.length by omega)]
        exact e1
      rw [hlit, ha, bind_ok]
      exact ⟨d', ws1, ws2, rfl, by simpa using e2, e3⟩
    | cons w ws =>
      have ha : ({ d with read := d.read + 1 } : Dec).after = .ok { d with read := d.read + 1 } := by
        unfold Dec.after
        simp only [List.length_cons] at hlen
        rw [if_neg (show ¬ d.read + 1 = d.decoded.length by omega)]
      rw [hlit, ha, bind_ok]
      exact ⟨_, w :: ws, vs2, rfl, rfl, I.lits, I.mr, by show d.read + 1 ≤ d.decoded.length; omega, by simp, g2, I.cnt, I.bits, I.syms⟩

theorem decLoop_eq {C : Nat → Nat} {L : Nat} (B : Bounds C L) : ∀ (n : Nat) (vs1 vs2 : List Nat) (d : Dec) (fuel : Nat), (vs1 ++ vs2).length = n → Inv C L d vs1 vs2 →
    n < fuel → decLoop fuel d = .ok ((vs1 ++ vs2).map UInt8.ofNat)
  | n, [], vs2, d, fuel, hn, I, hf => absurd rfl I.ne
  | 0, v :: vs1, vs2, d, fuel, hn, I, hf => by simp at hn
  | n + 1, v :: vs1, vs2, d, 0, hn, I, hf => by omega
  | n + 1, v :: vs1, vs2, d, fuel + 1, hn, I, hf => by
    have hb : d.bits.isEmpty = false := by
      have := codeBits_ne (if vs2 = [] then [] else codes C L 0 M64 vs2) M64
      rw [← I.bits] at this
      cases hd : d.bits with
      | nil => exact absurd hd this
      | cons _ _ => rfl
    simp only [List.cons_append, List.length_cons, Nat.add_right_cancel_iff] at hn
    obtain ⟨l1, l2⟩ := literal_eq B d v vs1 vs2 I
    unfold decLoop
    rw [hb]
    by_cases hne : vs1 ++ vs2 = []
    · obtain ⟨h1, h2⟩ := List.append_eq_nil_iff.1 hne
      obtain ⟨d', e1, e2⟩ := l1 h1 h2
      subst h1 h2
      obtain ⟨f, rfl⟩ : ∃ f, fuel = f + 1 := ⟨fuel - 1, by omega⟩
      simp only [e1, Bool.false_eq_true, if_false, bind_ok]
      unfold decLoop
      simp [e2]
    · obtain ⟨d', ws1, ws2, e1, e2, e3⟩ := l2 hne
      have ih := decLoop_eq B n ws1 ws2 d' fuel (by rw [← e2]; exact hn) e3 (by omega)
      simp only [e1, Bool.false_eq_true, if_false, bind_ok, ih]
      rw [← e2]
      rfl

/-! ## the code book -/

theorem book_mem {C : Nat → Nat} : ∀ (n a : Nat) (x : Nat × Nat), x ∈ book C a n → a ≤ x.1 ∧ x.1 < a + n ∧ x.2 = C x.1
  | 0, a, x, h => by simp [book] at h
  | n + 1, a, x, h => by
    unfold book at h
    have ih := book_mem (C := C) n (a + 1) x
    split at h
    · rcases List.mem_cons.1 h with rfl | h
      · exact ⟨Nat.le_refl _, by show a < a + (n + 1); omega, rfl⟩
      · have := ih h
        exact ⟨by omega, by omega, this.2.2⟩
    · have := ih h
      exact ⟨by omega, by omega, this.2.2⟩

theorem book_length {C c : Nat → Nat} (h : ∀ i, i < 256 → (before C i ≠ C i ↔ c i ≠ 0)) : ∀ (n a : Nat), a + n ≤ 256 →
    (book C a n).length = (List.range' a n).countP fun i => decide (c i ≠ 0)
  | 0, a, _ => rfl
  | n + 1, a, hn => by
    have ih := book_length h n (a + 1) (by omega)
    unfold book
    rw [List.range'_succ, List.countP_cons]
    by_cases hb : before C a ≠ C a
    · rw [if_pos hb, if_pos (by simpa using (h a (by omega)).1 hb), List.length_cons, ih]
    · rw [if_neg hb, if_neg (by simpa using (not_congr (h a (by omega))).1 hb), ih]
      rfl

theorem rdBook_eq : ∀ (xs : List (Nat × Nat)) (r : List Bool), (∀ x ∈ xs, x.1 < 256 ∧ x.2 < 2 ^ 31) →
    rdBook xs.length ((xs.flatMap fun x => writeInt x.1 8 ++ writeInt x.2 32) ++ r) = (xs, r)
  | [], r, _ => rfl
  | x :: xs, r, h => by
    obtain ⟨h1, h2⟩ := h x (List.mem_cons_self ..)
    have ih := rdBook_eq xs r fun y hy => h y (List.mem_cons_of_mem _ hy)
    simp only [List.flatMap_cons, List.length_cons, rdBook, List.append_assoc]
    rw [rdInt_writeInt 8 x.1 8 _ (by omega) (by omega)]
    simp only
    rw [rdInt_writeInt 32 x.2 32 _ (by omega) (by omega)]
    simp only [ih, sext, if_pos h2]

theorem open_eq {C : Nat → Nat} {L : Nat} (B : Bounds C L) (count size : Nat) (r : List Bool) (hc : count < 2 ^ 32)
    (hs : size = (book C 0 256).length) (hs' : size < 256) :
    Dec.open (header count size C ++ r) = .ok ⟨book C 0 256, count, 0, L, [], 0, r⟩ := by
  obtain ⟨c, hlast⟩ := book_last B 256 0 rfl (by simpa [before] using B.pos)
  unfold Dec.open header
  simp only [List.append_assoc]
  rw [rdInt_writeInt 32 count 32 _ hc hc]
  simp only
  rw [rdInt_writeInt 8 size 8 _ (by omega) (by omega)]
  simp only [hs]
  rw [rdBook_eq]
  · simp only [hlast]
  · intro x hx
    obtain ⟨_, h2, h3⟩ := book_mem 256 0 x hx
    have := B.top x.1 (by omega)
    have := B.small
    exact ⟨by omega, by omega⟩

/-! ## the counts -/

theorem cum_mono (c : Nat → Nat) (i j : Nat) (h : i ≤ j) : cum c i ≤ cum c j := by
  induction j with
  | zero => rw [Nat.le_zero.1 h]
  | succ j ih =>
    by_cases e : i = j + 1
    · rw [e]
    · exact Nat.le_trans (ih (by omega)) (by rw [cum]; omega)

theorem cum_sum (ls : List UInt8) (j : Nat) : cum (cnt ls) j = ls.countP fun c => decide (c.toNat ≤ j) := by
  induction j with
  | zero =>
    unfold cum cnt
    apply List.countP_congr
    intro c _
    simp
  | succ j ih =>
    unfold cum
    rw [ih]
    unfold cnt
    clear ih
    induction ls with
    | nil => rfl
    | cons x xs ih2 =>
      simp only [List.countP_cons]
      rw [← ih2]
      simp only [beq_iff_eq, decide_eq_true_eq]
      by_cases h1 : x.toNat = j + 1
      · rw [if_pos h1, if_neg (by omega), if_pos (by omega)]
        omega
      · rw [if_neg h1]
        by_cases h2 : x.toNat ≤ j
        · rw [if_pos h2, if_pos (by omega)]
          omega
        · rw [if_neg h2, if_neg (by omega)]
          omega

theorem foldl_min (c : Nat → Nat) : ∀ (l : List Nat) (m : Nat),
    (l.foldl (fun m i => if c i ≠ 0 then min m (c i) else m) m ≤ m) ∧
    (∀ i ∈ l, c i ≠ 0 → l.foldl (fun m i => if c i ≠ 0 then min m (c i) else m) m ≤ c i) ∧
    (l.foldl (fun m i => if c i ≠ 0 then min m (c i) else m) m = m ∨ ∃ i ∈ l, c i ≠ 0 ∧ l.foldl (fun m i => if c i ≠ 0 then min m (c i) else m) m = c i)
  | [], m => ⟨Nat.le_refl _, by simp, Or.inl rfl⟩
  | a :: l, m => by
    simp only [List.foldl_cons]
    obtain ⟨h1, h2, h3⟩ := foldl_min c l (if c a ≠ 0 then min m (c a) else m)
    generalize List.foldl (fun m i => if c i ≠ 0 then min m (c i) else m) (if c a ≠ 0 then min m (c a) else m) l = r at *
    by_cases ha : c a ≠ 0
    · rw [if_pos ha] at h1 h3
      refine ⟨by omega, ?_, ?_⟩
      · intro i hi hc
        rcases List.mem_cons.1 hi with rfl | hi
        · omega
        · exact h2 i hi hc
      · rcases h3 with h3 | ⟨i, hi, hc, e⟩
        · by_cases hm : m ≤ c a
          · left; omega
          · right; exact ⟨a, List.mem_cons_self .., ha, by omega⟩
        · exact Or.inr ⟨i, List.mem_cons_of_mem _ hi, hc, e⟩
    · rw [if_neg ha] at h1 h3
      refine ⟨h1, ?_, ?_⟩
      · intro i hi hc
        rcases List.mem_cons.1 hi with rfl | hi
        · exact absurd hc ha
        · exact h2 i hi hc
      · rcases h3 with h3 | ⟨i, hi, hc, e⟩
        · exact Or.inl h3
        · exact Or.inr ⟨i, List.mem_cons_of_mem _ hi, hc, e⟩

theorem cnt_ne_zero (ls : List UInt8) (i : Nat) : cnt ls i ≠ 0 ↔ ∃ c ∈ ls, c.toNat = i := by
  unfold cnt
  rw [← Nat.pos_iff_ne_zero, List.countP_pos_iff]
  simp

theorem cnt_le (ls : List UInt8) (i : Nat) : cnt ls i ≤ ls.length := List.countP_le_length

/-- What the texts must satisfy. -/
structure Ready (ls : List UInt8) : Prop where
  no255 : (255 : UInt8) ∉ ls
  len : ls.length < 2 ^ 31
  ex : ∃ c ∈ ls, c ≠ 0
  zero : (0 : UInt8) ∈ ls → ∃ c ∈ ls, c ≠ 0 ∧ ls.count c ≤ ls.count 0

theorem cnt_eq (ls : List UInt8) (c : UInt8) : cnt ls c.toNat = ls.count c := by
  unfold cnt List.count
  apply List.countP_congr
  intro x _
  simp [UInt8.toNat_inj]

theorem ne_zero_toNat {c : UInt8} (h : c ≠ 0) : c.toNat ≠ 0 := fun e => h (UInt8.toNat_inj.1 e)

section
variable {ls : List UInt8} (R : Ready ls)
include R

theorem min_spec : 0 < minCount (cnt ls) ∧ ∀ i, i < 256 → cnt ls i ≠ 0 → minCount (cnt ls) ≤ cnt ls i := by
  obtain ⟨h1, h2, h3⟩ := foldl_min (cnt ls) (List.range' 1 255) (2 ^ 32 - 1)
  have hmem : ∀ c ∈ ls, c ≠ 0 → minCount (cnt ls) ≤ ls.count c := by
    intro c hc h0
    have := ne_zero_toNat h0
    rw [← cnt_eq]
    exact h2 c.toNat (by simp only [List.mem_range'_1]; have := c.toNat_lt; omega) ((cnt_ne_zero ls _).2 ⟨c, hc, rfl⟩)
  constructor
  · unfold minCount
    rcases h3 with h3 | ⟨i, hi, hc, e⟩
    · rw [h3]; decide
    · rw [e]; omega
  · intro i hi hc
    by_cases hz : i = 0
    · subst hz
      obtain ⟨c, hcm, h0⟩ := (cnt_ne_zero ls 0).1 hc
      have : c = 0 := UInt8.toNat_inj.1 h0
      subst this
      obtain ⟨d, hd, hd0, hle⟩ := R.zero hcm
      have e := cnt_eq ls 0
      have : (0 : UInt8).toNat = 0 := rfl
      rw [this] at e
      rw [e]
      exact Nat.le_trans (hmem d hd hd0) hle
    · exact h2 i (by simp only [List.mem_range'_1]; omega) hc

theorem norm_lt (i : Nat) (hi : i < 256) (hc : cnt ls i ≠ 0) : before (norm (cnt ls)) i < norm (cnt ls) i := by
  obtain ⟨hp, hm⟩ := min_spec R
  have := hm i hi hc
  have hcum : cum (cnt ls) i = cnt ls i + (if i = 0 then 0 else cum (cnt ls) (i - 1)) := by
    cases i with
    | zero => rfl
    | succ i => rfl
  unfold before norm
  by_cases hz : i = 0
  · rw [if_pos hz, hcum, if_pos hz]
    exact Nat.div_pos (by omega) hp
  · rw [if_neg hz, hcum, if_neg hz]
    have : (cum (cnt ls) (i - 1) + minCount (cnt ls)) / minCount (cnt ls) ≤ (cnt ls i + cum (cnt ls) (i - 1)) / minCount (cnt ls) :=
      Nat.div_le_div_right (by omega)
    rw [Nat.add_div_right _ hp] at this
    omega

omit R in
theorem norm_eq (i : Nat) (hc : cnt ls i = 0) : before (norm (cnt ls)) i = norm (cnt ls) i := by
  unfold before norm
  cases i with
  | zero => simp [cum, hc]
  | succ i => simp [cum, hc]

theorem bounds : Bounds (norm (cnt ls)) (norm (cnt ls) 255) := by
  obtain ⟨hp, hm⟩ := min_spec R
  have mono : ∀ i j, i ≤ j → norm (cnt ls) i ≤ norm (cnt ls) j := fun i j h => Nat.div_le_div_right (cum_mono _ _ _ h)
  refine ⟨mono, fun i h => mono i 255 h, rfl, ?_, ?_⟩
  · obtain ⟨c, hc, h0⟩ := R.ex
    have h1 := norm_lt R c.toNat c.toNat_lt ((cnt_ne_zero ls _).2 ⟨c, hc, rfl⟩)
    have h2 := mono c.toNat 255 (by have := c.toNat_lt; omega)
    omega
  · have h1 : norm (cnt ls) 255 ≤ cum (cnt ls) 255 := Nat.div_le_self _ _
    rw [cum_sum] at h1
    have : ls.countP (fun c => decide (c.toNat ≤ 255)) ≤ ls.length := List.countP_le_length
    have := R.len
    omega

theorem c255 : cnt ls 255 = 0 := by
  by_contra h
  obtain ⟨c, hc, e⟩ := (cnt_ne_zero ls 255).1 h
  exact R.no255 ((UInt8.toNat_inj.1 e : c = 255) ▸ hc)

theorem norm254 : norm (cnt ls) 254 = norm (cnt ls) 255 := norm_eq (ls := ls) 255 (c255 R)

theorem cum254 : cum (cnt ls) 254 = ls.length := by
  rw [cum_sum]
  apply List.countP_eq_length.2
  intro c hc
  have h : c.toNat ≠ 255 := fun e => R.no255 ((UInt8.toNat_inj.1 e : c = 255) ▸ hc)
  have := c.toNat_lt
  simp only [decide_eq_true_eq]
  omega

theorem size_eq : codebookSize (cnt ls) = (book (norm (cnt ls)) 0 256).length ∧ codebookSize (cnt ls) < 256 := by
  have h : ∀ i, i < 256 → (before (norm (cnt ls)) i ≠ norm (cnt ls) i ↔ cnt ls i ≠ 0) := fun i hi =>
    ⟨fun hb hc => hb (norm_eq (ls := ls) i hc), fun hc => Nat.ne_of_lt (norm_lt R i hi hc)⟩
  have hl := book_length h 256 0 (Nat.le_refl _)
  have hlt : ((List.range 256).countP fun i => decide (cnt ls i ≠ 0)) < 256 := by
    rw [show 256 = 255 + 1 from rfl, List.range_succ, List.countP_append]
    have a := List.countP_le_length (p := fun i => decide (cnt ls i ≠ 0)) (l := List.range 255)
    have b : List.countP (fun i => decide (cnt ls i ≠ 0)) [255] = 0 := by simp [c255 R]
    rw [List.length_range] at a
    omega
  unfold codebookSize
  rw [hl, ← List.range_eq_range', Nat.mod_eq_of_lt hlt]
  exact ⟨rfl, hlt⟩

theorem roundtrip : ∃ bytes, compress ls = .ok bytes ∧ decompress bytes = .ok ls := by
  have B := bounds R
  have hlen := R.len
  have hne : ls ≠ [] := by
    rintro rfl
    obtain ⟨c, hc, _⟩ := R.ex
    cases hc
  have hsym : ∀ v ∈ ls.map UInt8.toNat, Sym (norm (cnt ls)) v := by
    intro v hv
    obtain ⟨c, hc, rfl⟩ := List.mem_map.1 hv
    have := c.toNat_lt
    exact ⟨by omega, norm_lt R _ this ((cnt_ne_zero ls _).2 ⟨c, hc, rfl⟩)⟩
  have hrun := run_eq (L := norm (cnt ls) 255) (ls.map UInt8.toNat) (Enc.init ls) B (norm254 R) hsym (by show 0 < M64; rw [M64_eq]; decide) (Nat.le_refl _) (by simpa using hne)
    (by show 0 + _ = cum (cnt ls) 254; rw [cum254 R]; simp) (by show cum (cnt ls) 254 < _; rw [cum254 R]; omega)
  have htok : (ls.map UInt8.toNat).map (fun v => (Rng.literal, v)) = literalTokens ls := by
    unfold literalTokens
    rw [List.map_map]
    rfl
  rw [htok] at hrun
  refine ⟨_, by rw [compress, encodeFile, hrun, bind_ok], ?_⟩
  unfold decompress
  rw [bitsOf_toBytes]
  obtain ⟨s1, s2⟩ := size_eq R
  have hop := open_eq B (cum (cnt ls) 254) (codebookSize (cnt ls)) (codeBits (codes (norm (cnt ls)) (norm (cnt ls) 255) 0 M64 (ls.map UInt8.toNat) ++ [M64]))
    (by rw [cum254 R]; omega) s1 s2
  have hop' : Dec.open (header (Enc.init ls).count (codebookSize (cnt ls)) (Enc.init ls).C ++
      codeBits (codes (Enc.init ls).C (norm (cnt ls) 255) (Enc.init ls).lb (Enc.init ls).ub (ls.map UInt8.toNat) ++ [M64])) = _ := hop
  rw [hop', bind_ok]
  generalize hd : (⟨book (norm (cnt ls)) 0 256, cum (cnt ls) 254, 0, norm (cnt ls) 255, [], 0,
    codeBits (codes (norm (cnt ls)) (norm (cnt ls) 255) 0 M64 (ls.map UInt8.toNat) ++ [M64])⟩ : Dec) = d
  have hcount : d.count = ls.length := by rw [← hd]; exact cum254 R
  obtain ⟨d', vs1, vs2, e1, e2, I, hr0⟩ := next_eq B d (ls.map UInt8.toNat) (by rw [← hd]) (by rw [← hd])
    (by rw [hcount, ← hd]; simp) hsym (by simpa using hne) (by rw [← hd])
  have hback : (vs1 ++ vs2).map UInt8.ofNat = ls := by
    rw [← e2, List.map_map]
    calc _ = ls.map id := List.map_congr_left fun c _ => by simp
      _ = ls := List.map_id _
  -- the first literal reads the first code
  have hdec0 : d.decoded = [] := by rw [← hd]
  have hlit : d.literal = d'.literal := by
    have hp : d.prepare = .ok d' := by
      unfold Dec.prepare
      rw [hdec0]
      exact e1
    have hp' : d'.prepare = .ok d' := by
      unfold Dec.prepare
      rw [if_neg]
      intro h
      have hd' := I.dec
      rw [List.eq_nil_of_length_eq_zero h] at hd'
      exact I.ne (by simpa using hd'.symm)
    rw [Dec.literal, Dec.literal, hp, hp']
  have hb : d.bits.isEmpty = false := by
    have h0 := codeBits_ne (codes (norm (cnt ls)) (norm (cnt ls) 255) 0 M64 (ls.map UInt8.toNat)) M64
    rw [← hd]
    simpa using h0
  have hb' : d'.bits.isEmpty = false := by
    have h0 := codeBits_ne (if vs2 = [] then [] else codes (norm (cnt ls)) (norm (cnt ls) 255) 0 M64 vs2) M64
    rw [← I.bits] at h0
    simpa using h0
  have heq : ∀ f, decLoop (f + 1) d = decLoop (f + 1) d' := by
    intro f
    unfold decLoop
    rw [hb, hb', hlit]
  show decLoop (d.count + d.bits.length + 2) d = .ok ls
  rw [heq, decLoop_eq B _ vs1 vs2 d' _ rfl I, hback]
  rw [← e2, List.length_map]
  omega

end

end Arith
end Tdc
