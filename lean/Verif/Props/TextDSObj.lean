import Verif.Lemmas.TextDSObj
import Verif.Props.LZSSLCP

/-!
# Property C76: every history of calls to `TextDS`

`run C (init m) ops` is a `TextDS` for the text `C.text` with option `compress = m` and the structures `C.lk`, `C.ik` on which a client makes the
calls `ops`. `read s x i` is the `i`-th entry of the structure `x` a client sees afterwards; data handed out by value is the second
component of the result.
-/

namespace Tdc
namespace TObj

/-- The calls for which the property is proved: no `release_x`; and if one of the structures points to the suffix array, the suffix
array is among the requested structures, is not taken out of the object, and these structures are not asked for their storage. -/
def Harmless (C : Cfg) : Op → Prop
  | .require f _ => (C.lk = .plain ∧ C.ik = .plain) ∨ f.sa = true
  | .need _ _ => True
  | .inplace x _ => (C.lk = .plain ∧ C.ik = .plain) ∨ (x ≠ .sa ∧ (x = .lcp → C.lk = .plain) ∧ (x = .isa → C.ik = .plain))
  | .release _ => False

/-- what must hold right after a call -/
def After (s : St) : Op → Prop
  | .require f _ => (∀ x, f.has x = true → s.has x = true) ∧ ((∃ x, f.has x = true) → ∀ x, s.has x = true → f.has x = true)
  | .need x _ => s.has x = true
  | .inplace _ _ => True
  | .release _ => True

section
variable {C : Cfg} {k : K} (F : Facts C k) (ht : ∀ t, C.ik = .sparse t → 1 ≤ t)
include F ht

theorem need_spec (x : DS) (cm : Option Mode) {s : St} (hI : Inv C k s) :
    ∃ s', need C x cm s = .ok s' ∧ Inv C k s' ∧ s'.has x = true := by
  cases x with
  | sa =>
    obtain ⟨a, -, c, -⟩ := needSA_spec F (cm.getD s.cm) hI
    exact ⟨_, rfl, a, by simp [St.has, c]⟩
  | phi =>
    obtain ⟨r, e, a, -, c, -⟩ := needPhi_spec F (cm.getD s.cm) hI
    simp only [need, e]
    exact ⟨_, rfl, a, by simp [St.has, c]⟩
  | plcp =>
    obtain ⟨r, e, a, -, c, -⟩ := needPlcp_spec F (cm.getD s.cm) hI
    simp only [need, e]
    exact ⟨_, rfl, a, by simp [St.has, c]⟩
  | lcp =>
    obtain ⟨r, e, a, -, c⟩ := needLcp_spec F (cm.getD s.cm) hI
    simp only [need, e]
    exact ⟨_, rfl, a, by simp [St.has, c]⟩
  | isa =>
    obtain ⟨r, e, a, -, c⟩ := needIsa_spec F ht (cm.getD s.cm) hI
    simp only [need, e]
    exact ⟨_, rfl, a, by simp [St.has, c]⟩

omit F ht in
theorem Inv.noSA {s : St} (hI : Inv C k s) (h : C.lk = .plain ∧ C.ik = .plain) : Inv C k { s with sa := none } := by
  refine ⟨fun p hp => (by cases hp), hI.phi, hI.plcp, fun o ho => ⟨(hI.lcp o ho).1, ?_⟩, fun o ho => ⟨(hI.isa o ho).1, ?_⟩⟩
  · have := (hI.lcp o ho).1
    cases o with
    | array v mx => trivial
    | compressed a mx sel => rw [LcpOk, h.1] at this; cases this.1
  · have := (hI.isa o ho).1
    cases o with
    | array v => trivial
    | sparse a t hs r sc => rw [IsaOk, h.2] at this; cases this.1

theorem inplace_spec (x : DS) (cm : Option Mode) (hx : Harmless C (.inplace x cm)) {s : St} (hI : Inv C k s) :
    ∃ r, inplace C x cm s = .ok r ∧ Inv C k r.1 ∧ Reads C.text C.saOf x (vget r.2) ∧ (x = .lcp → r.2[0]? = some 0) := by
  cases x with
  | sa =>
    obtain ⟨a, -, -, d⟩ := needSA_spec F (cm.getD s.cm) hI
    refine ⟨_, rfl, ?_, ?_, by simp⟩
    · show Inv C k (if _ then _ else _)
      split
      · exact a
      · rcases hx with hx | hx
        · exact a.noSA hx
        · exact absurd rfl hx.1
    · show Reads C.text C.saOf .sa (vget (needSA C (cm.getD s.cm) s).2.2)
      rw [d]
      intro i v hv
      exact vget_ok hv
  | phi =>
    obtain ⟨r, e, a, -, d, -⟩ := takePhi_spec F (cm.getD s.cm) hI
    simp only [inplace, e]
    refine ⟨_, rfl, a, ?_, by simp⟩
    show Reads C.text C.saOf .phi (vget r.2.vals)
    rw [d]
    exact F.phiR
  | plcp =>
    obtain ⟨r, e, a, -, -, d, -⟩ := needPlcp_spec F (cm.getD s.cm) hI
    simp only [inplace, e]
    refine ⟨_, rfl, ?_, F.plcpR _ d, by simp⟩
    show Inv C k (if _ then _ else _)
    split
    · exact a
    · exact ⟨a.sa, a.phi, fun p hp => (by cases hp), fun o ho => ⟨(a.lcp o ho).1, (a.lcp o ho).2.mono fun p hp => hp⟩,
        fun o ho => ⟨(a.isa o ho).1, (a.isa o ho).2.mono fun p hp => hp⟩⟩
  | lcp =>
    obtain ⟨r, e, a, -, c⟩ := needLcp_spec F (cm.getD s.cm) hI
    have hk : C.lk = .plain := by
      rcases hx with hx | hx
      · exact hx.1
      · exact hx.2.1 rfl
    have hok := (a.lcp _ c).1
    simp only [inplace, e]
    obtain ⟨s', o⟩ := r
    cases o with
    | compressed p mx sel => rw [LcpOk, hk] at hok; cases hok.1
    | array v mx =>
      obtain ⟨-, rfl, rfl⟩ := hok
      refine ⟨_, rfl, ?_, F.lcpR, fun _ => F.lcp0⟩
      show Inv C k (if _ then _ else _)
      split
      · exact a
      · exact ⟨a.sa, a.phi, a.plcp, fun p hp => (by cases hp), fun o ho => ⟨(a.isa o ho).1, (a.isa o ho).2.mono fun p hp => hp⟩⟩
  | isa =>
    obtain ⟨r, e, a, -, c⟩ := needIsa_spec F ht (cm.getD s.cm) hI
    have hk : C.ik = .plain := by
      rcases hx with hx | hx
      · exact hx.2
      · exact hx.2.2 rfl
    have hok := (a.isa _ c).1
    simp only [inplace, e]
    obtain ⟨s', o⟩ := r
    cases o with
    | sparse p t hs r sc => rw [IsaOk, hk] at hok; cases hok.1
    | array v =>
      obtain ⟨-, rfl⟩ := hok
      refine ⟨_, rfl, ?_, F.isaR, by simp⟩
      show Inv C k (if _ then _ else _)
      split
      · exact a
      · exact ⟨a.sa, a.phi, a.plcp, fun o ho => ⟨(a.lcp o ho).1, (a.lcp o ho).2.mono fun p hp => hp⟩, fun p hp => (by cases hp)⟩

theorem step_spec (op : Op) (hop : Harmless C op) {s : St} (hI : Inv C k s) :
    ∃ r, step C s op = .ok r ∧ Inv C k r.1 ∧ After r.1 op ∧
      ∀ p ∈ r.2, Reads C.text C.saOf p.1 (vget p.2) ∧ (p.1 = .lcp → p.2[0]? = some 0) := by
  cases op with
  | require f cm =>
    obtain ⟨s', e, a, -, -, b, c⟩ := require_spec F ht f cm hI hop
    simp only [step, e]
    exact ⟨_, rfl, a, ⟨b, c⟩, by simp⟩
  | need x cm =>
    obtain ⟨s', e, a, b⟩ := need_spec F ht x cm hI
    simp only [step, e]
    exact ⟨_, rfl, a, b, by simp⟩
  | inplace x cm =>
    obtain ⟨r, e, a, b, c⟩ := inplace_spec F ht x cm hop hI
    simp only [step, e]
    refine ⟨_, rfl, a, trivial, ?_⟩
    intro p hp
    rw [List.mem_singleton.mp hp]
    exact ⟨b, c⟩
  | release x => exact absurd hop id

theorem run_spec : ∀ (ops : List Op) (s : St), (∀ op ∈ ops, Harmless C op) → Inv C k s →
    ∃ s' outs, run C s ops = .ok (s', outs) ∧ Inv C k s' ∧ (∀ op, ops.getLast? = some op → After s' op) ∧
      ∀ p ∈ outs, Reads C.text C.saOf p.1 (vget p.2) ∧ (p.1 = .lcp → p.2[0]? = some 0) := by
  intro ops
  induction ops with
  | nil => intro s _ hI; exact ⟨s, [], rfl, hI, by simp, by simp⟩
  | cons op ops ih =>
    intro s hops hI
    obtain ⟨r, e, a, b, c⟩ := step_spec F ht op (hops op (by simp)) hI
    obtain ⟨s', outs, e', a', b', c'⟩ := ih r.1 (fun op h => hops op (by simp [h])) a
    simp only [run, e, e', Except.bind]
    refine ⟨_, _, rfl, a', ?_, ?_⟩
    · intro op' hop'
      cases ops with
      | nil =>
        rw [run] at e'
        cases e'
        cases hop'
        exact b
      | cons o os => exact b' op' (by rwa [List.getLast?_cons_cons] at hop')
    · intro p hp
      rcases List.mem_append.mp hp with hp | hp
      · exact c p hp
      · exact c' p hp

omit ht in
theorem maxLcp_spec {s : St} (hI : Inv C k s) : ∀ mx ∈ maxLcp s, IsMaxLcp C.text C.saOf mx := by
  intro mx hmx
  rw [maxLcp, List.mem_append] at hmx
  rcases hmx with h | h
  · cases hp : s.plcp with
    | none => rw [hp] at h; cases h
    | some p =>
      rw [hp] at h
      rw [List.mem_singleton.mp h, (hI.plcp p hp).2]
      exact F.mx
  · cases hp : s.lcp with
    | none => rw [hp] at h; cases h
    | some p =>
      have := (hI.lcp p hp).1
      rw [hp] at h
      cases p with
      | array v m =>
        rw [List.mem_singleton.mp h, this.2.2]
        exact F.mx
      | compressed a m sel =>
        rw [List.mem_singleton.mp h, this.2.1]
        exact F.mx

end

/-- **C76.** Take any text ending with its only null byte, any setting of `compress`, `lcp` and `isa`, and any sequence of calls
`require(flags, cm)`, `require_x(cm)`, `inplace_x(cm)` in any order (see `Harmless`). No call fails. Afterwards every structure the
object holds answers exactly what its name says, `max_lcp()` is the maximum, and all data handed out on the way was right. After `require(flags)`
the object holds exactly the requested structures (if any were), after `require_x` it holds `x`.

Missing for the full property: `release_x` (`textds_release_broken`), structures that point to a suffix array that was not requested
(`textds_compressed_lcp_dangling`, `textds_sparse_isa_dangling`), `inplace_x` of these structures (`textds_inplace_throws`), the
lifetime of references (`textds_phi_reference_dangling`), entry 0 of `CompressedLCP` (`compressed_lcp_zero`) and the last entry of PLCP (`plcp_last_garbage`). -/
theorem textds_history_partial (C : Cfg) (m : Mode) (ops : List Op) (hsa : IsSA C.text C.saOf) (hs : Sentinel C.text)
    (h32 : C.text.length < 2 ^ 32) (ht : ∀ t, C.ik = .sparse t → 1 ≤ t) (hops : ∀ op ∈ ops, Harmless C op) :
    ∃ s outs, run C (init m) ops = .ok (s, outs) ∧
      (∀ x, s.has x = true → Reads C.text C.saOf x (read s x)) ∧
      (C.lk = .plain → s.has .lcp = true → read s .lcp 0 = .ok 0) ∧
      (∀ mx ∈ maxLcp s, IsMaxLcp C.text C.saOf mx) ∧
      (∀ p ∈ outs, Reads C.text C.saOf p.1 (vget p.2) ∧ (p.1 = .lcp → p.2[0]? = some 0)) ∧
      (∀ f cm, ops.getLast? = some (.require f cm) →
        (∀ x, f.has x = true → s.has x = true) ∧ ((∃ x, f.has x = true) → ∀ x, s.has x = true → f.has x = true)) ∧
      (∀ x cm, ops.getLast? = some (.need x cm) → s.has x = true) := by
  obtain ⟨k, F⟩ := facts C hsa hs h32
  obtain ⟨s, outs, e, a, b, c⟩ := run_spec F ht ops (init m) hops (Inv.init C k m)
  exact ⟨s, outs, e, fun x hx => (read_spec F ht a x hx).1, fun h1 h2 => ((read_spec F ht a .lcp h2).2 rfl).2 h1, maxLcp_spec F a, c,
    fun f cm h => b _ h, fun x cm h => b _ h⟩

/-- a history that drops and rebuilds, with both pointing structures -/
example : ∀ op ∈ [Op.need .phi none, .require { sa := true, lcp := true } none, .inplace .plcp none,
    .require { sa := true, isa := true } (some .compressed), .need .lcp none],
    Harmless ⟨[97, 98, 97, 98, 0], [4, 2, 0, 3, 1], .compressed, .sparse 2⟩ op := by
  simp [Harmless]

/-- **C76 is false of `release_x`.** For every text: build the LCP array, move it out, ask for it again. The object still believes to
have it, and every read is undefined. -/
theorem textds_release_broken (C : Cfg) (m : Mode) (hlk : C.lk = .plain) (hsa : IsSA C.text C.saOf) (hs : Sentinel C.text)
    (h32 : C.text.length < 2 ^ 32) :
    ∃ s outs, run C (init m) [.need .lcp none, .release .lcp, .need .lcp none] = .ok (s, outs) ∧ s.has .lcp = true ∧
      ∀ i, read s .lcp i = .error .ub := by
  obtain ⟨k, F⟩ := facts C hsa hs h32
  obtain ⟨r, e, a, b, c⟩ := needLcp_spec F m (Inv.init C k m)
  have hok := (a.lcp _ c).1
  obtain ⟨s1, o⟩ := r
  cases o with
  | compressed p mx sel => rw [LcpOk, hlk] at hok; cases hok.1
  | array v mx =>
    have e' : needLcp C ((none : Option Mode).getD (init m).cm) (init m) = .ok (s1, .array v mx) := e
    have c' : s1.lcp = some (.array v mx) := c
    refine ⟨{ s1 with lcp := some (.array [] mx) }, [(.lcp, v)], ?_, rfl, ?_⟩
    · have e3 : needLcp C ((none : Option Mode).getD s1.cm) { s1 with lcp := some (.array [] mx) } =
          .ok ({ s1 with lcp := some (.array [] mx) }, .array [] mx) := rfl
      simp only [run, step, need, e', Except.bind, release, c', e3]
      rfl
    · intro i
      simp [read, vget]

/-- **C76 is false of `CompressedLCP` without the suffix array.** `require(LCP)` succeeds, the object holds the structure, and every read
follows a pointer to the suffix array that was thrown away. -/
theorem textds_compressed_lcp_dangling (C : Cfg) (m : Mode) (hlk : C.lk = .compressed) (hsa : IsSA C.text C.saOf) (hs : Sentinel C.text)
    (h32 : C.text.length < 2 ^ 32) :
    ∃ s, run C (init m) [.require { lcp := true } none] = .ok (s, []) ∧ s.has .lcp = true ∧ ∀ i, read s .lcp i = .error .ub := by
  obtain ⟨k, F⟩ := facts C hsa hs h32
  obtain ⟨r, e, a, b, c⟩ := needLcp_spec F (reqMode none (init m)) (s := { init m with req := { lcp := true } })
    (by constructor <;> intro p h <;> cases h)
  have hok := (a.lcp _ c).1
  obtain ⟨s1, o⟩ := r
  cases o with
  | array v mx => rw [LcpOk, hlk] at hok; cases hok.1
  | compressed p mx sel =>
    have c' : s1.lcp = some (.compressed p mx sel) := c
    have hr : s1.req = { lcp := true } := b.req
    have key : ∃ s', require C { lcp := true } none (init m) = .ok s' ∧ s'.sa = none ∧ s'.lcp = some (.compressed p mx sel) := by
      have h1 : reqSA C (reqMode none (init m)) { init m with req := { lcp := true } } = { init m with req := { lcp := true } } := rfl
      have h2 : reqPhi C (reqMode none (init m)) { init m with req := { lcp := true } } = .ok { init m with req := { lcp := true } } := rfl
      have h3 : reqPlcp C (reqMode none (init m)) { init m with req := { lcp := true } } = .ok { init m with req := { lcp := true } } := rfl
      have h4 : ∃ s3, reqLcp C (reqMode none (init m)) { init m with req := { lcp := true } } = .ok s3 ∧ s3.sa = none ∧
          s3.lcp = some (.compressed p mx sel) ∧ s3.req = { lcp := true } := by
        simp only [reqLcp, e, if_true, Except.bind]
        refine ⟨_, rfl, ?_, ?_, ?_⟩ <;> split <;> simp [discard, hr, c', LcpObj.pack]
      obtain ⟨s3, h4, h5, h6, h7⟩ := h4
      have h8 : reqIsa C (reqMode none (init m)) s3 = .ok s3 := by simp [reqIsa, h7]
      simp only [require, h1, h2, Except.bind, h3, h4, h8]
      refine ⟨_, rfl, ?_, ?_⟩ <;> split <;> simp [compressPlcp, compressPhi, compressSA, h5, h6]
    obtain ⟨s', e1, e2, e3⟩ := key
    refine ⟨s', ?_, by simp [St.has, e3], ?_⟩
    · simp only [run, step, e1, Except.bind]
      rfl
    · intro i
      simp [read, e3, deref, e2, Except.bind]

/-- **C76 is false of `SparseISA` without the suffix array.** -/
theorem textds_sparse_isa_dangling (C : Cfg) (m : Mode) (t : Nat) (hik : C.ik = .sparse t) (ht : 1 ≤ t) (hsa : IsSA C.text C.saOf)
    (hs : Sentinel C.text) (h32 : C.text.length < 2 ^ 32) :
    ∃ s, run C (init m) [.require { isa := true } none] = .ok (s, []) ∧ s.has .isa = true ∧ ∀ i, read s .isa i = .error .ub := by
  obtain ⟨k, F⟩ := facts C hsa hs h32
  obtain ⟨r, e, a, b, c⟩ := needIsa_spec F (fun t' h => by rw [hik] at h; cases h; exact ht) (reqMode none (init m))
    (s := { init m with req := { isa := true } }) (by constructor <;> intro p h <;> cases h)
  have hok := (a.isa _ c).1
  obtain ⟨s1, o⟩ := r
  cases o with
  | array v => rw [IsaOk, hik] at hok; cases hok.1
  | sparse p t hs r sc =>
    have c' : s1.isa = some (.sparse p t hs r sc) := c
    have hr : s1.req = { isa := true } := b.req
    have key : ∃ s', require C { isa := true } none (init m) = .ok s' ∧ s'.sa = none ∧ s'.isa = some (.sparse p t hs r sc) := by
      have h1 : reqSA C (reqMode none (init m)) { init m with req := { isa := true } } = { init m with req := { isa := true } } := rfl
      have h2 : reqPhi C (reqMode none (init m)) { init m with req := { isa := true } } = .ok { init m with req := { isa := true } } := rfl
      have h3 : reqPlcp C (reqMode none (init m)) { init m with req := { isa := true } } = .ok { init m with req := { isa := true } } := rfl
      have h3' : reqLcp C (reqMode none (init m)) { init m with req := { isa := true } } = .ok { init m with req := { isa := true } } := rfl
      have h4 : ∃ s3, reqIsa C (reqMode none (init m)) { init m with req := { isa := true } } = .ok s3 ∧ s3.sa = none ∧
          s3.isa = some (.sparse p t hs r sc) := by
        simp only [reqIsa, e, if_true, Except.bind]
        refine ⟨_, rfl, ?_, ?_⟩ <;> split <;> simp [discard, hr, c', IsaObj.pack]
      obtain ⟨s3, h4, h5, h6⟩ := h4
      simp only [require, h1, h2, Except.bind, h3, h3', h4]
      refine ⟨_, rfl, ?_, ?_⟩ <;> split <;> simp [compressPlcp, compressPhi, compressSA, h5, h6]
    obtain ⟨s', e1, e2, e3⟩ := key
    refine ⟨s', ?_, by simp [St.has, e3], ?_⟩
    · simp only [run, step, e1, Except.bind]
      rfl
    · intro i
      simp [read, e3, deref, e2, Except.bind]

/-- **C76 is false of `inplace_lcp` and `inplace_isa`** of these structures: the call throws, for every text. -/
theorem textds_inplace_throws (C : Cfg) (m : Mode) (hsa : IsSA C.text C.saOf) (hs : Sentinel C.text) (h32 : C.text.length < 2 ^ 32) :
    (C.lk = .compressed → run C (init m) [.inplace .lcp none] = .error .throw) ∧
    (∀ t, 1 ≤ t → C.ik = .sparse t → run C (init m) [.inplace .isa none] = .error .throw) := by
  obtain ⟨k, F⟩ := facts C hsa hs h32
  constructor
  · intro hlk
    obtain ⟨r, e, a, b, c⟩ := needLcp_spec F m (Inv.init C k m)
    have hok := (a.lcp _ c).1
    obtain ⟨s1, o⟩ := r
    cases o with
    | array v mx => rw [LcpOk, hlk] at hok; cases hok.1
    | compressed p mx sel =>
      have e' : needLcp C ((none : Option Mode).getD (init m).cm) (init m) = .ok (s1, .compressed p mx sel) := e
      simp only [run, step, inplace, e', Except.bind]
  · intro t ht hik
    obtain ⟨r, e, a, b, c⟩ := needIsa_spec F (fun t' h => by rw [hik] at h; cases h; exact ht) m (Inv.init C k m)
    have hok := (a.isa _ c).1
    obtain ⟨s1, o⟩ := r
    cases o with
    | array v => rw [IsaOk, hik] at hok; cases hok.1
    | sparse p t hs r sc =>
      have e' : needIsa C ((none : Option Mode).getD (init m).cm) (init m) = .ok (s1, .sparse p t hs r sc) := e
      simp only [run, step, inplace, e', Except.bind]

/-- **C76, references.** `require_phi()` returns a reference; the next `require_plcp()` (also made by `require_lcp()`) throws Phi away, for
every text and every mode, and the reference dangles. -/
theorem textds_phi_reference_dangling (C : Cfg) (m : Mode) (hsa : IsSA C.text C.saOf) (hs : Sentinel C.text) (h32 : C.text.length < 2 ^ 32) :
    (∃ s, run C (init m) [.need .phi none] = .ok (s, []) ∧ s.has .phi = true) ∧
    ∃ s, run C (init m) [.need .phi none, .need .plcp none] = .ok (s, []) ∧ s.has .phi = false := by
  obtain ⟨k, F⟩ := facts C hsa hs h32
  obtain ⟨r, e, a, b, c, d⟩ := needPhi_spec F m (Inv.init C k m)
  have e' : needPhi C ((none : Option Mode).getD (init m).cm) (init m) = .ok r := e
  have hreq : r.1.req = {} := b.req
  have hcm : r.1.cm = m := b.cm
  have hp : r.1.plcp = none := by
    simp only [needPhi] at e
    change ((phiFromSA C.text.length (needSA C m (init m)).2.2).bind fun v => _) = _ at e
    cases hv : phiFromSA C.text.length (needSA C m (init m)).2.2 with
    | error x => rw [hv] at e; cases e
    | ok v => rw [hv] at e; cases e; rfl
  have hphi : needPhi C ((none : Option Mode).getD r.1.cm) r.1 = .ok (r.1, r.2) := by rw [needPhi, c]
  refine ⟨⟨r.1, ?_, by simp [St.has, c]⟩, ?_⟩
  · simp only [run, step, need, e', Except.bind]
    rfl
  · have ht : takePhi C ((none : Option Mode).getD r.1.cm) r.1 = .ok ({ r.1 with phi := none }, r.2) := by
      simp only [takePhi, hphi, Except.bind, hreq]
      rfl
    have hq : ∃ s q, needPlcp C ((none : Option Mode).getD r.1.cm) r.1 = .ok (s, q) ∧ s.phi = none := by
      simp only [needPlcp, hp, ht, Except.bind, d, F.plcp]
      exact ⟨_, _, rfl, rfl⟩
    obtain ⟨s, q, e2, e3⟩ := hq
    refine ⟨s, ?_, by simp [St.has, e3]⟩
    simp only [run, step, need, e', Except.bind, e2]
    rfl

/-- the hypotheses are met, and the object is accepted -/
example : IsSA [97, 98, 97, 98, 0] [4, 2, 0, 3, 1] ∧ Sentinel [97, 98, 97, 98, 0] ∧
    (∃ s, create [97, 98, 97, 98, 0] (Mode.ofOption "delayed") = .ok s) := ⟨isSA_abab, sentinel_abab, _, rfl⟩

/-- **C76 (the constructor).** The object refuses exactly the texts that do not end with a null byte. -/
theorem textds_needs_sentinel (text : List UInt8) (m : Mode) :
    ((∃ u, text = u ++ [0]) → create text m = .ok (init m)) ∧ ((¬ ∃ u, text = u ++ [0]) → create text m = .error .throw) := by
  unfold create
  constructor
  · rintro ⟨u, rfl⟩
    rw [if_pos (by simp)]
  · intro h
    rw [if_neg]
    intro hc
    obtain ⟨u, hu⟩ := List.getLast?_eq_some_iff.mp hc
    exact h ⟨u, hu⟩

/-! ### C77: the choice of structures does not change what a compressor writes -/

theorem mapM_range {α : Type} (f : Nat → Res α) : ∀ (l : List Nat), (∀ i ∈ l, ∃ v, f i = .ok v) →
    ∃ r, l.mapM f = .ok r ∧ r.length = l.length ∧ ∀ (i a : Nat) (v : α), l[i]? = some a → f a = .ok v → r[i]? = some v := by
  intro l
  induction l with
  | nil => intro _; exact ⟨[], rfl, rfl, by simp⟩
  | cons a l ih =>
    intro h
    obtain ⟨v, hv⟩ := h a (by simp)
    obtain ⟨r, e, h1, h2⟩ := ih (fun i hi => h i (by simp [hi]))
    refine ⟨v :: r, ?_, by simp [h1], ?_⟩
    · rw [List.mapM_cons, hv, e]
      rfl
    · intro i b w hb hw
      cases i with
      | zero =>
        simp only [List.getElem?_cons_zero, Option.some.injEq] at hb ⊢
        subst hb
        rw [hv] at hw
        cases hw
        rfl
      | succ i => exact h2 i b w (by simpa using hb) hw

theorem tab_spec {n : Nat} (f : Nat → Res Nat) (h : ∀ i, i < n → ∃ v, f i = .ok v) :
    ∃ r, (List.range n).mapM f = .ok r ∧ r.length = n ∧ ∀ i v, i < n → f i = .ok v → r[i]? = some v := by
  obtain ⟨r, e, h1, h2⟩ := mapM_range f (List.range n) (fun i hi => h i (List.mem_range.mp hi))
  exact ⟨r, e, by rw [h1, List.length_range], fun i v hi hv => h2 i i v (by rw [List.getElem?_range hi]) hv⟩

/-- the arrays a compressor sees agree with the plain ones, but for entry 0 of the LCP array -/
structure Same (A A' : TextArrays) : Prop where
  sa : A'.sa = A.sa
  isa : A'.isa = A.isa
  len : A'.lcp.length = A.lcp.length
  lcp : ∀ k : Nat, 1 ≤ k → A'.lcp[k]? = A.lcp[k]?

theorem vget_congr {α : Type} {l l' : List α} {i : Nat} (h : l'[i]? = l[i]?) : vget l' i = vget l i := by
  unfold vget
  rw [h]

theorem psvLoop_same {A A' : TextArrays} (h : Same A A') (h1 : A.lcp[1]? = some 0 ∨ A.lcp[1]? = none) (h0 : 0 < A.lcp.length) (cur : Nat) : ∀ p l : Nat, (p = 1 → l = 0) →
    psvLoop A' cur p l = psvLoop A cur p l := by
  intro p
  induction p with
  | zero => intro l _; rfl
  | succ p ih =>
    intro l hl
    rw [psvLoop, psvLoop, h.sa]
    cases vget A.sa p with
    | error e => rfl
    | ok sp =>
      by_cases hc : sp > cur
      · simp only [if_pos hc]
        cases p with
        | zero =>
          rw [hl rfl]
          have e1 := vget_ok (l := A.lcp) (i := 0) (List.getElem?_eq_getElem h0)
          have e2 := vget_ok (l := A'.lcp) (i := 0) (List.getElem?_eq_getElem (by rw [h.len]; exact h0))
          rw [e1, e2]
          simp only [psvLoop, Nat.zero_min]
        | succ p =>
          rw [vget_congr (h.lcp (p + 1) (by omega))]
          cases hv : vget A.lcp (p + 1) with
          | error e => rfl
          | ok x =>
            refine ih _ ?_
            intro hp
            have : p = 0 := by omega
            subst this
            rcases h1 with h1 | h1
            · rw [vget_ok h1] at hv
              cases hv
              exact Nat.min_zero _
            · rw [vget, h1] at hv
              cases hv
      · simp only [if_neg hc]

theorem nsvLoop_same {A A' : TextArrays} (h : Same A A') (cur : Nat) : ∀ k pos l : Nat, 1 ≤ pos → nsvLoop A' cur k pos l = nsvLoop A cur k pos l := by
  intro k
  induction k with
  | zero => intro pos l _; rfl
  | succ k ih =>
    intro pos l hp
    rw [nsvLoop, nsvLoop, h.sa, vget_congr (h.lcp pos hp)]
    cases vget A.lcp pos with
    | error e => rfl
    | ok x =>
      cases vget A.sa pos with
      | error e => rfl
      | ok sp =>
        simp only
        rw [ih (pos + 1) _ (by omega)]

theorem lcp_one {t : List UInt8} {A : TextArrays} (hA : ArraysOk t A) (hs : Sentinel t) : A.lcp[1]? = some 0 ∨ A.lcp[1]? = none := by
  by_cases h : 1 < t.length
  · obtain ⟨i, hi, hil⟩ := hA.isSA.get (k := 1) h
    have h0 := hA.isSA.zero hs
    have hne : i ≠ t.length - 1 := by
      intro hc
      rw [← hc] at h0
      have := hA.isSA.inj hi h0
      omega
    have := hA.lcp 0 i _ hi h0
    have h2 := hs.lcp_lt (i := i) (j := t.length - 1) hil (by omega) hne
    rw [this]
    left
    congr 1
    omega
  · right
    rw [List.getElem?_eq_none_iff, hA.lcpLength]
    omega

theorem lpfSearch_same {t : List UInt8} {A A' : TextArrays} (hA : ArraysOk t A) (hs : Sentinel t) (h : Same A A') {i : Nat} (hi : i + 1 < t.length) :
    lpfSearch A' t.length i = lpfSearch A t.length i := by
  obtain ⟨cur, hcl, hcur⟩ := hA.isSA.idx (p := i) (by omega)
  have hc1 : 1 ≤ cur := by
    rcases Nat.eq_zero_or_pos cur with rfl | h
    · rw [hA.isSA.zero hs] at hcur
      have : t.length - 1 = i := by simpa using hcur
      omega
    · exact h
  have h1 := lcp_one hA hs
  have hn := hs.len_pos
  rw [lpfSearch, lpfSearch, h.isa, vget_ok (hA.isa cur i hcur)]
  simp only
  rw [h.sa, vget_congr (h.lcp cur hc1)]
  cases hv : vget A.lcp cur with
  | error e => rfl
  | ok l0 =>
    cases vget A.sa cur with
    | error e => rfl
    | ok scur =>
      simp only
      have hp : (if l0 > 0 then psvLoop A' scur cur l0 else .ok (cur, l0)) = (if l0 > 0 then psvLoop A scur cur l0 else .ok (cur, l0)) := by
        by_cases hl : l0 > 0
        · rw [if_pos hl, if_pos hl]
          refine psvLoop_same h h1 (by rw [hA.lcpLength]; exact hn) scur cur l0 ?_
          rintro rfl
          rcases h1 with h1 | h1
          · rw [vget_ok h1] at hv
            cases hv
            rfl
          · rw [vget, h1] at hv
            cases hv
        · rw [if_neg hl, if_neg hl]
      rw [hp]
      simp only [nsvLoop_same h scur _ (cur + 1) _ (by omega)]

theorem lcpFactorLoop_same {t : List UInt8} {A A' : TextArrays} (hA : ArraysOk t A) (hs : Sentinel t) (h : Same A A') (th : Nat) : ∀ fuel i : Nat,
    lcpFactorLoop A' t.length th fuel i = lcpFactorLoop A t.length th fuel i := by
  intro fuel
  induction fuel with
  | zero => intro i; rfl
  | succ fuel ih =>
    intro i
    rw [lcpFactorLoop, lcpFactorLoop]
    by_cases hi : i + 1 < t.length
    · simp only [if_pos hi, lpfSearch_same hA hs h hi, h.sa, ih]
    · simp only [if_neg hi]

/-- the arrays after a history that leaves suffix array, inverse and LCP in the object -/
theorem arraysOf_spec {C : Cfg} {k : K} (F : Facts C k) (ht : ∀ t, C.ik = .sparse t → 1 ≤ t) (hsa : IsSA C.text C.saOf) {s : St} (hI : Inv C k s)
    (h1 : s.has .sa = true) (h2 : s.has .isa = true) (h3 : s.has .lcp = true) :
    ∃ A, arraysOf C s = .ok A ∧ A.sa = C.saOf ∧ A.isa.length = C.text.length ∧ (∀ k i : Nat, C.saOf[k]? = some i → A.isa[i]? = some k) ∧
      A.lcp.length = C.text.length ∧ (C.lk = .plain → A.lcp[0]? = some 0) ∧
      (∀ k i j : Nat, C.saOf[k + 1]? = some i → C.saOf[k]? = some j → A.lcp[k + 1]? = some (lcpLen (C.text.drop i) (C.text.drop j))) := by
  have r1 := (read_spec F ht hI .sa h1).1
  have r2 := (read_spec F ht hI .isa h2).1
  obtain ⟨r3, r4⟩ := read_spec F ht hI .lcp h3
  obtain ⟨r4, r5⟩ := r4 rfl
  obtain ⟨sa, e1, l1, g1⟩ := tab_spec (n := C.text.length) (read s .sa) (fun i hi => by
    obtain ⟨v, hv, -⟩ := hsa.get (k := i) hi
    exact ⟨v, r1 i v hv⟩)
  obtain ⟨isa, e2, l2, g2⟩ := tab_spec (n := C.text.length) (read s .isa) (fun i hi => by
    obtain ⟨v, -, hv⟩ := hsa.idx (p := i) hi
    exact ⟨v, r2 v i hv⟩)
  obtain ⟨lcp, e3, l3, g3⟩ := tab_spec (n := C.text.length) (read s .lcp) r4
  refine ⟨⟨sa, isa, lcp⟩, ?_, ?_, l2, ?_, l3, ?_, ?_⟩
  · rw [arraysOf, e1]
    simp only [Except.bind, e2, e3]
  · apply List.ext_getElem?
    intro i
    by_cases hi : i < C.text.length
    · obtain ⟨v, hv, -⟩ := hsa.get (k := i) hi
      rw [hv]
      exact g1 i v hi (r1 i v hv)
    · rw [List.getElem?_eq_none (by show sa.length ≤ i; omega), List.getElem?_eq_none (by rw [hsa.length]; omega)]
  · intro k i hi
    exact g2 i k (hsa.lt i (List.mem_of_getElem? hi)) (r2 k i hi)
  · intro hk
    exact g3 0 0 F.npos (r5 hk)
  · intro k i j hi hj
    have := (List.getElem?_eq_some_iff.mp hi).1
    exact g3 (k + 1) _ (by rw [← hsa.length]; exact this) (r3 k i j hi hj)

theorem isa_unique {n : Nat} {sa isa isa' : List Nat} (hidx : ∀ p, p < n → ∃ k : Nat, sa[k]? = some p) (h1 : isa.length = n) (h2 : isa'.length = n)
    (g1 : ∀ k i : Nat, sa[k]? = some i → isa[i]? = some k) (g2 : ∀ k i : Nat, sa[k]? = some i → isa'[i]? = some k) : isa = isa' := by
  apply List.ext_getElem?
  intro p
  by_cases hp : p < n
  · obtain ⟨k, hk⟩ := hidx p hp
    rw [g1 k p hk, g2 k p hk]
  · rw [List.getElem?_eq_none (by omega), List.getElem?_eq_none (by omega)]

theorem arraysOf_same {C : Cfg} {A A' : TextArrays} (hsa : IsSA C.text C.saOf) (hA : ArraysOk C.text A) (hAs : A.sa = C.saOf) (hAi : A.isa.length = C.text.length)
    (a1 : A'.sa = C.saOf) (a2 : A'.isa.length = C.text.length) (a3 : ∀ k i : Nat, C.saOf[k]? = some i → A'.isa[i]? = some k)
    (a4 : A'.lcp.length = C.text.length)
    (a6 : ∀ k i j : Nat, C.saOf[k + 1]? = some i → C.saOf[k]? = some j → A'.lcp[k + 1]? = some (lcpLen (C.text.drop i) (C.text.drop j))) : Same A A' := by
  refine ⟨a1.trans hAs.symm, ?_, a4.trans hA.lcpLength.symm, ?_⟩
  · refine isa_unique (n := C.text.length) (sa := C.saOf) (fun p hp => ?_) a2 hAi a3 (hAs ▸ hA.isa)
    obtain ⟨k, -, hk⟩ := hsa.idx (p := p) hp
    exact ⟨k, hk⟩
  · intro k hk
    by_cases hkl : k < C.text.length
    · obtain ⟨k, rfl⟩ : ∃ k', k = k' + 1 := ⟨k - 1, by omega⟩
      obtain ⟨i, hi, -⟩ := hsa.get (k := k + 1) hkl
      obtain ⟨j, hj, -⟩ := hsa.get (k := k) (by omega)
      rw [a6 k i j hi hj, hA.lcp k i j (hAs ▸ hi) (hAs ▸ hj)]
    · rw [List.getElem?_eq_none (by omega), List.getElem?_eq_none (by rw [hA.lcpLength]; omega)]

/-- **C77 (the arrays).** Whatever calls were made before, whatever `compress` and `isa` say: with the plain LCP array a compressor that finds SA, ISA and
LCP in the object reads exactly the arrays of the default configuration. -/
theorem textds_arrays_unique (C : Cfg) (m : Mode) (ops : List Op) (pk : Packs) (hlk : C.lk = .plain) (hsa : IsSA C.text C.saOf) (hs : Sentinel C.text)
    (h32 : C.text.length < 2 ^ 32) (ht : ∀ t, C.ik = .sparse t → 1 ≤ t) (hops : ∀ op ∈ ops, Harmless C op) (s : St) (outs : List (DS × List Nat))
    (he : run C (init m) ops = .ok (s, outs)) (h1 : s.has .sa = true) (h2 : s.has .isa = true) (h3 : s.has .lcp = true) :
    arraysOf C s = textDS pk C.text C.saOf := by
  obtain ⟨k, F⟩ := facts C hsa hs h32
  obtain ⟨s', outs', e, a, -, -⟩ := run_spec F ht ops (init m) hops (Inv.init C k m)
  rw [he] at e
  cases e
  obtain ⟨A', e, a1, a2, a3, a4, a5, a6⟩ := arraysOf_spec F ht hsa a h1 h2 h3
  obtain ⟨A, e', b1, b2, b3, b4, b5, b6⟩ := textds_exact pk C.text C.saOf hsa hs (by omega)
  rw [e, e']
  have hS := arraysOf_same hsa ⟨b1 ▸ hsa, b1 ▸ b3, b4, b5, b1 ▸ b6⟩ b1 b2 a1 a2 a3 a4 a6
  have hl : A'.lcp = A.lcp := by
    apply List.ext_getElem?
    intro k
    cases k with
    | zero => rw [a5 hlk, b5]
    | succ k => exact hS.lcp (k + 1) (by omega)
  obtain ⟨x, y, z⟩ := A
  obtain ⟨x', y', z'⟩ := A'
  have q1 := hS.sa
  have q2 := hS.isa
  simp only at q1 q2 hl
  rw [q1, q2, hl]

/-- **C77.** `lzss_lcp` with any `compress`, any of the two LCP structures and any of the two inverse suffix arrays writes the same bytes as with
the default (and fails in the same way for `threshold = 0`), although entry 0 of `CompressedLCP` is wrong. -/
theorem lzss_lcp_textds_irrelevant (c : UCoder) (C : Cfg) (m : Mode) (pk : Packs) (th : Nat) (hsa : IsSA C.text C.saOf) (hs : Sentinel C.text)
    (h32 : C.text.length < 2 ^ 32) (ht : ∀ t, C.ik = .sparse t → 1 ≤ t) :
    lzssWith c C m th = lzssLcpCompress c pk th C.text C.saOf := by
  obtain ⟨k, F⟩ := facts C hsa hs h32
  have hops : ∀ op ∈ lzssHistory, Harmless C op := by
    intro op hop
    simp only [lzssHistory, List.mem_cons, List.not_mem_nil, or_false] at hop
    rcases hop with rfl | rfl | rfl | rfl
    · exact Or.inr rfl
    · trivial
    · trivial
    · trivial
  obtain ⟨s, outs, e, a, -, -⟩ := run_spec F ht lzssHistory (init m) hops (Inv.init C k m)
  -- the three structures are there
  have hall : s.has .sa = true ∧ s.has .isa = true ∧ s.has .lcp = true := by
    obtain ⟨s1, e1, i1, r1, -, b1, -⟩ := require_spec F ht { sa := true, isa := true, lcp := true } none (Inv.init C k m) (Or.inr rfl)
    obtain ⟨p1, q1⟩ := Option.isSome_iff_exists.mp (b1 .sa rfl)
    obtain ⟨p2, q2⟩ := Option.isSome_iff_exists.mp (b1 .isa rfl)
    obtain ⟨p3, q3⟩ := Option.isSome_iff_exists.mp (b1 .lcp rfl)
    have n1 : need C .sa none s1 = .ok s1 := by simp [need, needSA, q1]
    have n2 : need C .isa none s1 = .ok s1 := by simp [need, needIsa, q2, Except.bind]
    have n3 : need C .lcp none s1 = .ok s1 := by simp [need, needLcp, q3, Except.bind]
    simp only [lzssHistory, run, step, e1, n1, n2, n3, Except.bind] at e
    cases e
    exact ⟨b1 .sa rfl, b1 .isa rfl, b1 .lcp rfl⟩
  obtain ⟨A', e2, a1, a2, a3, a4, a5, a6⟩ := arraysOf_spec F ht hsa a hall.1 hall.2.1 hall.2.2
  obtain ⟨A, e', b1, b2, b3, b4, b5, b6⟩ := textds_exact pk C.text C.saOf hsa hs (by omega)
  have hA : ArraysOk C.text A := ⟨b1 ▸ hsa, b1 ▸ b3, b4, b5, b1 ▸ b6⟩
  have hS := arraysOf_same hsa hA b1 b2 a1 a2 a3 a4 a6
  unfold lzssWith lzssLcpCompress
  rw [e, e']
  simp only [Except.bind, e2, lcpFactors]
  rw [lcpFactorLoop_same hA hs hS]
  cases lcpFactorLoop A C.text.length th (C.text.length + 1) 0 <;> rfl

/-- **C77 (losslessness).** Hence `lzss_lcp` is lossless with every choice of text index structures. -/
theorem lzss_lcp_textds_lossless (n : CoderName) (C : Cfg) (m : Mode) (th : Nat) (hth : 1 ≤ th) (hsa : IsSA C.text C.saOf) (hs : Sentinel C.text)
    (h32 : C.text.length < 2 ^ 32) (ht : ∀ t, C.ik = .sparse t → 1 ≤ t) :
    ∃ bytes, lzssWith n.coder C m th = .ok bytes ∧ lzssLcpDecompress n.coder bytes = .ok C.text := by
  rw [lzss_lcp_textds_irrelevant n.coder C m ⟨false, false, false, false, false⟩ th hsa hs h32 ht]
  exact lzss_lcp_lossless n _ th C.text C.saOf hth hsa hs h32

/-- entry 0 of the two LCP structures differs for this text, the outputs agree: both find the factor -/
example : (match run ⟨[97, 98, 97, 98, 0], [4, 2, 0, 3, 1], .compressed, .sparse 2⟩ (init .delayed) lzssHistory with
    | .ok r => (match arraysOf ⟨[97, 98, 97, 98, 0], [4, 2, 0, 3, 1], .compressed, .sparse 2⟩ r.1 with
      | .ok A => (A.lcp, lcpFactors A 5 2) | .error e => ([], .error e)) | .error e => ([], .error e)) = ([1, 0, 2, 0, 1], .ok [⟨2, 0, 2⟩]) := by
  decide +kernel

end TObj
end Tdc
