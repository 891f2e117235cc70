import Verif.Spec.TextDSObj
import Verif.Props.CompLCP
import Verif.Props.SparseISA

namespace Tdc
namespace TObj

/-- the contents every structure has whenever it is built -/
structure K where
  phi : List Nat
  plcp : List Nat
  mx : Nat
  lcp : List Nat
  isa : List Nat

/-- the PLCP array, packed or not (the packing may change its last entry) -/
def PV (k : K) (v : List Nat) : Prop := v = k.plcp ∨ v = packTo (bitsFor k.mx) k.plcp

theorem PV.packIf {k : K} {v : List Nat} (h : PV k v) (b : Bool) : PV k (packIf b (bitsFor k.mx) v) := by
  cases b with
  | false => exact h
  | true =>
    refine Or.inr ?_
    show packTo _ v = _
    rcases h with rfl | rfl
    · rfl
    · simp only [packTo, List.map_map]
      apply List.map_congr_left
      intro x _
      simp

theorem PV.packTo {k : K} {v : List Nat} (h : PV k v) : PV k (packTo (bitsFor k.mx) v) := h.packIf true

structure Facts (C : Cfg) (k : K) : Prop where
  npos : 0 < C.text.length
  saP : ∀ b, packIf b (bitsFor C.text.length) C.saOf = C.saOf
  saLen : C.saOf.length = C.text.length
  phi : phiFromSA C.text.length C.saOf = .ok k.phi
  phiLen : k.phi.length = C.text.length
  phiP : ∀ b, packIf b (bitsFor C.text.length) k.phi = k.phi
  phiR : Reads C.text C.saOf .phi (vget k.phi)
  plcp : plcpFromPhi C.text k.phi = .ok (k.plcp, k.mx)
  plcpP : ∀ b, packIf b (bitsFor C.text.length) k.plcp = k.plcp
  plcpR : ∀ v, PV k v → Reads C.text C.saOf .plcp (vget v)
  mx : IsMaxLcp C.text C.saOf k.mx
  lcp : ∀ v, PV k v → lcpFromPLCP C.saOf v = .ok k.lcp
  lcpLen : k.lcp.length = C.text.length
  lcp0 : k.lcp[0]? = some 0
  lcpR : Reads C.text C.saOf .lcp (vget k.lcp)
  lcpP : ∀ b, packIf b (bitsFor k.mx) k.lcp = k.lcp
  isa : isaFromSA C.text.length C.saOf = .ok k.isa
  isaLen : k.isa.length = C.text.length
  isaR : Reads C.text C.saOf .isa (vget k.isa)
  isaP : ∀ b, packIf b (bitsFor C.text.length) k.isa = k.isa
  clcp : ∀ v, PV k v → ∃ c, CL.build C.saOf v k.mx = .ok c ∧ c.sa = C.saOf ∧ c.max = k.mx ∧ (∀ i, i < C.text.length → ∃ x, c.get i = .ok x) ∧
    Reads C.text C.saOf .lcp c.get
  sparse : ∀ t, 1 ≤ t → ∃ S, SI.build C.saOf t = .ok S ∧ S.sa = C.saOf ∧ Reads C.text C.saOf .isa (SI.query S (t + 1))

theorem build_sa {sa plcp : List Nat} {mx : Nat} {c : CL.CLCP} (h : CL.build sa plcp mx = .ok c) : c.sa = sa := by
  rw [CL.build] at h
  cases e1 : CL.cBits plcp with
  | error e => rw [e1] at h; cases h
  | ok b =>
    rw [e1] at h
    change (RS.Select.build RS.basic1 (RS.BV.ofBits b) >>= fun S => Except.ok ⟨sa, mx, S⟩) = .ok c at h
    cases e2 : RS.Select.build RS.basic1 (RS.BV.ofBits b) with
    | error e => rw [e2] at h; cases h
    | ok S => rw [e2] at h; cases h; rfl

theorem facts (C : Cfg) (hsa : IsSA C.text C.saOf) (hs : Sentinel C.text) (h32 : C.text.length < 2 ^ 32) : ∃ k, Facts C k := by
  have hn := hs.len_pos
  obtain ⟨phi, plcp, mx, e1, hphi, e2, hl, hp, hlast, hmx, hmax⟩ := CL.plcp_all hsa hs (by omega)
  obtain ⟨phi', p1, p2, p3, p4⟩ := phiFromSA_spec hsa hn
  rw [e1] at p1
  cases p1
  obtain ⟨isa, i1, i2, i3⟩ := isaFromSA_spec hsa
  have hb := lt_two_pow_bitsFor C.text.length (by omega)
  have hbm := lt_two_pow_bitsFor mx hmx
  -- PLCP, packed or not
  have pvLen : ∀ b, (packIf b (bitsFor mx) plcp).length = C.text.length := fun b => by rw [packIf_length, hl]
  have pvIs : ∀ b (p v : Nat), p + 1 < C.text.length → (packIf b (bitsFor mx) plcp)[p]? = some v → IsPlcp C.text C.saOf p v ∧ v ≤ mx := by
    intro b p v hp' hv
    rw [packIf_get] at hv
    · exact hp p v hp' hv
    · intro v hv
      have := (hp p v hp' hv).2
      omega
  have pvLast : ∀ b v, (packIf b (bitsFor mx) plcp)[C.text.length - 1]? = some v → v < C.text.length := by
    intro b v hv
    obtain ⟨s, hse, hsl⟩ := hsa.get (k := C.text.length - 1) (by omega)
    rw [hse] at hlast
    rw [packIf] at hv
    split at hv
    · rw [packTo, List.getElem?_map, hlast] at hv
      have : s % 2 ^ bitsFor mx = v := by simpa using hv
      have := Nat.mod_le s (2 ^ bitsFor mx)
      omega
    · rw [hlast] at hv
      cases hv
      exact hsl
  have hlt : ∀ p v : Nat, p + 1 < C.text.length → plcp[p]? = some v → v < C.text.length := by
    intro p v hp' hv
    obtain ⟨k, hk, hke⟩ := hsa.idx (p := p) (by omega)
    cases k with
    | zero =>
      rw [hsa.zero hs] at hke
      have : C.text.length - 1 = p := by simpa using hke
      omega
    | succ k =>
      obtain ⟨j, hj, hjl⟩ := hsa.get (k := k) (by omega)
      have hne : p ≠ j := by
        rintro rfl
        have := hsa.inj hke hj
        omega
      have := (hp p v hp' hv).1 k j hke hj
      have := hs.lcp_lt (i := p) (j := j) (by omega) hjl hne
      omega
  obtain ⟨lcp, l1, l2, l3, l4, l5⟩ := lcpFromPLCP_spec hsa hs (pvLen false) (fun p v h1 h2 => (pvIs false p v h1 h2).1)
  have lcpAll : ∀ b, lcpFromPLCP C.saOf (packIf b (bitsFor mx) plcp) = .ok lcp := by
    intro b
    obtain ⟨lcp', m1, m2, m3, m4, m5⟩ := lcpFromPLCP_spec hsa hs (pvLen b) (fun p v h1 h2 => (pvIs b p v h1 h2).1)
    rw [m1]
    congr 1
    apply List.ext_getElem? 
    intro k
    by_cases hk : k < C.text.length
    · cases k with
      | zero => rw [m3, l3]
      | succ k =>
        obtain ⟨i, hi, -⟩ := hsa.get (k := k + 1) hk
        obtain ⟨j, hj, -⟩ := hsa.get (k := k) (by omega)
        rw [m4 k i j hi hj, l4 k i j hi hj]
    · rw [List.getElem?_eq_none (by omega), List.getElem?_eq_none (by omega)]
  have pvb : ∀ v, PV ⟨phi, plcp, mx, lcp, isa⟩ v → ∃ b, v = packIf b (bitsFor mx) plcp := by
    rintro v (rfl | rfl)
    · exact ⟨false, rfl⟩
    · exact ⟨true, rfl⟩
  refine ⟨⟨phi, plcp, mx, lcp, isa⟩, ?_⟩
  constructor
  · exact hn
  · intro b; exact packIf_eq fun v hv => by have := hsa.lt v hv; omega
  · exact hsa.length
  · exact e1
  · exact p2
  · intro b; exact packIf_eq fun v hv => by have := hphi v hv; omega
  · refine ⟨fun k i j hi hj => vget_ok ?_, fun i j hi hj => vget_ok ?_⟩
    · show phi[i]? = _
      rw [p3 k i hi, hj]
    · show phi[i]? = _
      rw [p4 i hi, hj]
  · exact e2
  · intro b
    refine packIf_eq fun v hv => ?_
    obtain ⟨p, hp', hpv⟩ := List.mem_iff_getElem.mp hv
    have hv' : plcp[p]? = some v := by rw [← hpv]; exact List.getElem?_eq_getElem hp'
    change p < plcp.length at hp'
    by_cases hq : p + 1 < C.text.length
    · have := hlt p v hq hv'; omega
    · have : p = C.text.length - 1 := by omega
      subst this
      have := pvLast false v hv'
      omega
  · intro v hv k i j hi hj
    obtain ⟨b, rfl⟩ := pvb v hv
    have hil := hsa.succ_lt hs hi
    have hg : (packIf b (bitsFor mx) plcp)[i]? = some ((packIf b (bitsFor mx) plcp)[i]'(by rw [pvLen]; omega)) := List.getElem?_eq_getElem _
    rw [vget_ok hg, (pvIs b i _ hil hg).1 k j hi hj]
  · refine ⟨fun k i j hi hj => ?_, hmax⟩
    have hil := hsa.succ_lt hs hi
    have hg : plcp[i]? = some (plcp[i]'(by omega)) := List.getElem?_eq_getElem _
    have := hp i _ hil hg
    rw [← this.1 k j hi hj]
    exact this.2
  · intro v hv
    obtain ⟨b, rfl⟩ := pvb v hv
    exact lcpAll b
  · exact l2
  · exact l3
  · intro k i j hi hj
    exact vget_ok (l4 k i j hi hj)
  · intro b
    refine packIf_eq fun v hv => ?_
    obtain ⟨k, hk, hke⟩ := List.mem_iff_getElem.mp hv
    change k < lcp.length at hk
    have hv' : lcp[k]? = some v := by rw [← hke]; exact List.getElem?_eq_getElem hk
    cases k with
    | zero => rw [l3] at hv'; cases hv'; exact Nat.pow_pos (by omega)
    | succ k =>
      obtain ⟨i, hi, hil⟩ := hsa.get (k := k + 1) (by omega)
      rw [l5 k i hi] at hv'
      have := (pvIs false i v (hsa.succ_lt hs hi) hv').2
      show v < 2 ^ bitsFor mx
      omega
  · exact i1
  · exact i2
  · intro k s hks
    exact vget_ok (i3 k s hks)
  · intro b
    refine packIf_eq fun v hv => ?_
    obtain ⟨p, hp', hpv⟩ := List.mem_iff_getElem.mp hv
    change p < isa.length at hp'
    obtain ⟨k, hk, hke⟩ := hsa.idx (p := p) (by omega)
    have := i3 k p hke
    rw [List.getElem?_eq_getElem hp'] at this
    have h2 : isa[p] = v := hpv
    rw [h2] at this
    cases this
    omega
  · intro v hv
    obtain ⟨b, rfl⟩ := pvb v hv
    have hslow := CL.plcp_slow hsa hs (pvLen b) h32 (fun p v h1 h2 => (pvIs b p v h1 h2).1) (pvLast b)
    obtain ⟨c, e3, hCm, hget⟩ := CL.build_get C.saOf (packIf b (bitsFor mx) plcp) mx
      (fun hc => by have := congrArg List.length hc; rw [pvLen, List.length_nil] at this; omega) (by rw [pvLen]; exact h32) hslow
    refine ⟨c, e3, build_sa e3, hCm, ?_, ?_⟩
    · intro i hi
      obtain ⟨s, hse, hsl⟩ := hsa.get (k := i) hi
      exact ⟨_, hget i s _ hse (List.getElem?_eq_getElem (by rw [pvLen]; exact hsl))⟩
    · intro k i j hi hj
      have hil := hsa.succ_lt hs hi
      have hg : (packIf b (bitsFor mx) plcp)[i]? = some ((packIf b (bitsFor mx) plcp)[i]'(by rw [pvLen]; omega)) := List.getElem?_eq_getElem _
      rw [← (pvIs b i _ hil hg).1 k j hi hj]
      exact hget (k + 1) i _ hi hg
  · intro t ht
    have hne : C.saOf ≠ [] := by
      intro h
      have := hsa.length
      rw [h, List.length_nil] at this
      omega
    have hl := hsa.length
    obtain ⟨S, e, hS, G⟩ := SI.build_spec ⟨hsa.nodup, by rw [hl]; exact hsa.lt⟩ (List.length_pos_iff.mpr hne) (by omega) ht
    refine ⟨S, e, hS, ?_⟩
    obtain ⟨S', e', -, hq⟩ := SI.sparse_isa_exact C.saOf hsa.nodup (by rw [hl]; exact hsa.lt) hne (by omega) t ht
    rw [e] at e'
    cases e'
    intro k s hks
    have hsl := hsa.lt s (List.mem_of_getElem? hks)
    obtain ⟨p, h1, h2⟩ := hq s (by omega)
    rw [h2 (t + 1) (Nat.le_refl _), hsa.inj h1 hks]

/-! ### The invariant -/

def LcpOk (C : Cfg) (k : K) : LcpObj → Prop
  | .array v mx => C.lk = .plain ∧ v = k.lcp ∧ mx = k.mx
  | .compressed _ mx sel => C.lk = .compressed ∧ mx = k.mx ∧ ∃ v c, PV k v ∧ CL.build C.saOf v k.mx = .ok c ∧ c.sel = sel

def IsaOk (C : Cfg) (k : K) : IsaObj → Prop
  | .array v => C.ik = .plain ∧ v = k.isa
  | .sparse _ t hs rank sc => C.ik = .sparse t ∧ ∃ S, SI.build C.saOf t = .ok S ∧ S.hs = hs ∧ S.rank = rank ∧ S.sc = sc

/-- does the pointer lead to the suffix array the object holds? -/
def LcpPtr (s : St) : LcpObj → Prop
  | .array _ _ => True
  | .compressed a _ _ => ∃ v, s.sa = some (a, v)

def IsaPtr (s : St) : IsaObj → Prop
  | .array _ => True
  | .sparse a _ _ _ _ => ∃ v, s.sa = some (a, v)

structure Inv (C : Cfg) (k : K) (s : St) : Prop where
  sa : ∀ p, s.sa = some p → p.2 = C.saOf
  phi : ∀ p, s.phi = some p → p.vals = k.phi
  plcp : ∀ p, s.plcp = some p → PV k p.vals ∧ p.max = k.mx
  lcp : ∀ o, s.lcp = some o → LcpOk C k o ∧ LcpPtr s o
  isa : ∀ o, s.isa = some o → IsaOk C k o ∧ IsaPtr s o

theorem Inv.init (C : Cfg) (k : K) (m : Mode) : Inv C k (init m) := by
  constructor <;> intro p h <;> cases h

/-- a step that changes neither the requests nor the mode, loses nothing that was requested and keeps the suffix array -/
structure Grows (s s' : St) : Prop where
  req : s'.req = s.req
  cm : s'.cm = s.cm
  keep : ∀ x, s.has x = true → s.req.has x = true → s'.has x = true
  sa : ∀ p, s.sa = some p → s'.sa = some p

theorem Grows.refl (s : St) : Grows s s := ⟨rfl, rfl, fun _ h _ => h, fun _ h => h⟩

theorem Grows.trans {s s' s'' : St} (h : Grows s s') (h' : Grows s' s'') : Grows s s'' :=
  ⟨h'.req.trans h.req, h'.cm.trans h.cm, fun x h1 h2 => h'.keep x (h.keep x h1 h2) (by rw [h.req]; exact h2), fun p hp => h'.sa p (h.sa p hp)⟩

theorem LcpPtr.mono {s s' : St} (h : ∀ p, s.sa = some p → s'.sa = some p) {o : LcpObj} (ho : LcpPtr s o) : LcpPtr s' o := by
  cases o with
  | array v mx => trivial
  | compressed a mx sel =>
    obtain ⟨v, hv⟩ := ho
    exact ⟨v, h _ hv⟩

theorem IsaPtr.mono {s s' : St} (h : ∀ p, s.sa = some p → s'.sa = some p) {o : IsaObj} (ho : IsaPtr s o) : IsaPtr s' o := by
  cases o with
  | array v => trivial
  | sparse a t hs r sc =>
    obtain ⟨v, hv⟩ := ho
    exact ⟨v, h _ hv⟩

section
variable {C : Cfg} {k : K} (F : Facts C k)
include F

theorem needSA_spec (m : Mode) {s : St} (hI : Inv C k s) :
    Inv C k (needSA C m s).1 ∧ Grows s (needSA C m s).1 ∧ (needSA C m s).1.sa = some (needSA C m s).2 ∧ (needSA C m s).2.2 = C.saOf := by
  unfold needSA
  cases h : s.sa with
  | some p => exact ⟨hI, Grows.refl s, h, hI.sa p h⟩
  | none =>
    have hg : ∀ p, s.sa = some p → some (s.next, packIf m.packs (bitsFor C.text.length) C.saOf) = some p := by
      intro p hp; rw [h] at hp; cases hp
    refine ⟨⟨?_, hI.phi, hI.plcp, ?_, ?_⟩, ⟨rfl, rfl, ?_, hg⟩, rfl, F.saP _⟩
    · intro p hp
      cases hp
      exact F.saP _
    · intro o ho
      exact ⟨(hI.lcp o ho).1, (hI.lcp o ho).2.mono hg⟩
    · intro o ho
      exact ⟨(hI.isa o ho).1, (hI.isa o ho).2.mono hg⟩
    · intro x hx _
      cases x <;> first | rfl | exact hx

theorem needPhi_spec (m : Mode) {s : St} (hI : Inv C k s) :
    ∃ r, needPhi C m s = .ok r ∧ Inv C k r.1 ∧ Grows s r.1 ∧ r.1.phi = some r.2 ∧ r.2.vals = k.phi := by
  unfold needPhi
  cases h : s.phi with
  | some p => exact ⟨_, rfl, hI, Grows.refl s, h, hI.phi p h⟩
  | none =>
    obtain ⟨a, b, c, d⟩ := needSA_spec F m hI
    simp only [d, F.phi]
    refine ⟨_, rfl, ⟨a.sa, ?_, a.plcp, a.lcp, a.isa⟩, ⟨b.req, b.cm, ?_, b.sa⟩, rfl, F.phiP _⟩
    · intro p hp
      cases hp
      exact F.phiP _
    · intro x hx hr
      have := b.keep x hx hr
      cases x <;> first | rfl | exact this

theorem takePhi_spec (m : Mode) {s : St} (hI : Inv C k s) :
    ∃ r, takePhi C m s = .ok r ∧ Inv C k r.1 ∧ Grows s r.1 ∧ r.2.vals = k.phi ∧ (r.1.has .phi = true → r.1.req.phi = true) := by
  obtain ⟨r, e, a, b, c, d⟩ := needPhi_spec F m hI
  unfold takePhi
  rw [e]
  change ∃ q, (if r.1.req.phi = true then Except.ok r else Except.ok ({ r.1 with phi := none }, r.2)) = Except.ok q ∧ _
  cases hq : r.1.req.phi with
  | true => exact ⟨r, rfl, a, b, d, fun _ => hq⟩
  | false =>
    refine ⟨_, rfl, ⟨a.sa, ?_, a.plcp, a.lcp, a.isa⟩, ⟨b.req, b.cm, ?_, b.sa⟩, d, ?_⟩
    · intro p hp; cases hp
    · intro x hx hr
      have := b.keep x hx hr
      cases x with
      | phi =>
        have h2 : s.req.phi = true := hr
        rw [← b.req, hq] at h2
        cases h2
      | _ => exact this
    · intro hc; cases hc

theorem needPlcp_spec (m : Mode) {s : St} (hI : Inv C k s) :
    ∃ r, needPlcp C m s = .ok r ∧ Inv C k r.1 ∧ Grows s r.1 ∧ r.1.plcp = some r.2 ∧ PV k r.2.vals ∧ r.2.max = k.mx := by
  unfold needPlcp
  cases h : s.plcp with
  | some p => exact ⟨_, rfl, hI, Grows.refl s, h, hI.plcp p h⟩
  | none =>
    obtain ⟨r, e, a, b, d, -⟩ := takePhi_spec F m hI
    rw [e]
    change ∃ q, (plcpFromPhi C.text r.2.vals).bind _ = _ ∧ _
    rw [d, F.plcp]
    have hpv : PV k (packIf m.packs (bitsFor k.mx) (packIf r.2.packed (bitsFor C.text.length) k.plcp)) := by
      rw [F.plcpP]
      exact PV.packIf (Or.inl rfl) _
    refine ⟨_, rfl, ⟨a.sa, a.phi, ?_, a.lcp, a.isa⟩, ⟨b.req, b.cm, ?_, b.sa⟩, rfl, hpv, rfl⟩
    · intro p hp
      cases hp
      exact ⟨hpv, rfl⟩
    · intro x hx hr
      have := b.keep x hx hr
      cases x <;> first | rfl | exact this

theorem needLcp_spec (m : Mode) {s : St} (hI : Inv C k s) :
    ∃ r, needLcp C m s = .ok r ∧ Inv C k r.1 ∧ Grows s r.1 ∧ r.1.lcp = some r.2 := by
  unfold needLcp
  cases h : s.lcp with
  | some p => exact ⟨_, rfl, hI, Grows.refl s, h⟩
  | none =>
    obtain ⟨a, b, c, d⟩ := needSA_spec F m hI
    obtain ⟨r, e, a', b', c', d1, d2⟩ := needPlcp_spec F m a
    rw [e]
    change ∃ q, (mkLcp C m (needSA C m s).2 r.2).bind _ = _ ∧ _
    have key : ∃ o, mkLcp C m (needSA C m s).2 r.2 = .ok o ∧ LcpOk C k o ∧ LcpPtr r.1 o := by
      unfold mkLcp
      rw [d]
      cases hk : C.lk with
      | plain =>
        simp only [F.lcp _ d1]
        refine ⟨_, rfl, ⟨hk, ?_, d2⟩, trivial⟩
        rw [d2]
        exact F.lcpP _
      | compressed =>
        obtain ⟨cl, f1, f2, f3, -⟩ := F.clcp _ d1
        simp only [d2, f1]
        refine ⟨_, rfl, ⟨hk, f3, _, cl, d1, f1, rfl⟩, ?_⟩
        exact ⟨_, b'.sa _ c⟩
    obtain ⟨o, e2, o1, o2⟩ := key
    rw [e2]
    have hg := b.trans b'
    refine ⟨_, rfl, ⟨a'.sa, a'.phi, a'.plcp, ?_, fun o ho => ⟨(a'.isa o ho).1, (a'.isa o ho).2.mono fun p hp => hp⟩⟩,
      ⟨hg.req, hg.cm, ?_, hg.sa⟩, rfl⟩
    · intro p hp
      cases hp
      exact ⟨o1, o2.mono fun p hp => hp⟩
    · intro x hx hr
      have := hg.keep x hx hr
      cases x <;> first | rfl | exact this

theorem needIsa_spec (ht : ∀ t, C.ik = .sparse t → 1 ≤ t) (m : Mode) {s : St} (hI : Inv C k s) :
    ∃ r, needIsa C m s = .ok r ∧ Inv C k r.1 ∧ Grows s r.1 ∧ r.1.isa = some r.2 := by
  unfold needIsa
  cases h : s.isa with
  | some p => exact ⟨_, rfl, hI, Grows.refl s, h⟩
  | none =>
    obtain ⟨a, b, c, d⟩ := needSA_spec F m hI
    have key : ∃ o, mkIsa C m (needSA C m s).2 = .ok o ∧ IsaOk C k o ∧ IsaPtr (needSA C m s).1 o := by
      unfold mkIsa
      rw [d]
      cases hk : C.ik with
      | plain =>
        simp only [F.isa, F.saLen, if_true]
        exact ⟨_, rfl, ⟨hk, F.isaP _⟩, trivial⟩
      | sparse t =>
        obtain ⟨S, f1, f2, -⟩ := F.sparse t (ht t hk)
        simp only [f1]
        exact ⟨_, rfl, ⟨hk, S, f1, rfl, rfl, rfl⟩, ⟨_, c⟩⟩
    obtain ⟨o, e2, o1, o2⟩ := key
    simp only [e2]
    refine ⟨_, rfl, ⟨a.sa, a.phi, a.plcp, fun o ho => ⟨(a.lcp o ho).1, (a.lcp o ho).2.mono fun p hp => hp⟩, ?_⟩,
      ⟨b.req, b.cm, ?_, b.sa⟩, rfl⟩
    · intro p hp
      cases hp
      exact ⟨o1, o2.mono fun p hp => hp⟩
    · intro x hx hr
      have := b.keep x hx hr
      cases x <;> first | rfl | exact this

omit F in
theorem discard_has (s : St) (x : DS) : (discard s).has x = (s.has x && s.req.has x) := by
  cases x <;> simp only [discard, St.has, Flags.has] <;> split <;> simp_all

omit F in
theorem discard_inv {s : St} (hI : Inv C k s) (hk : (C.lk = .plain ∧ C.ik = .plain) ∨ s.req.sa = true) : Inv C k (discard s) := by
  have hptr : ∀ o, s.lcp = some o → LcpPtr (discard s) o := by
    intro o ho
    obtain ⟨h1, h2⟩ := hI.lcp o ho
    rcases hk with hk | hk
    · cases o with
      | array v mx => trivial
      | compressed a mx sel =>
        rw [LcpOk, hk.1] at h1
        cases h1.1
    · refine h2.mono fun p hp => ?_
      show (if s.req.sa = true then s.sa else none) = _
      rw [if_pos hk, hp]
  have hptr' : ∀ o, s.isa = some o → IsaPtr (discard s) o := by
    intro o ho
    obtain ⟨h1, h2⟩ := hI.isa o ho
    rcases hk with hk | hk
    · cases o with
      | array v => trivial
      | sparse a t hs r sc =>
        rw [IsaOk, hk.2] at h1
        cases h1.1
    · refine h2.mono fun p hp => ?_
      show (if s.req.sa = true then s.sa else none) = _
      rw [if_pos hk, hp]
  have opt : ∀ {α : Type} (b : Bool) (o : Option α) (p : α), (if b = true then o else none) = some p → o = some p := by
    intro α b o p h
    cases b with
    | true => exact h
    | false => cases h
  exact ⟨fun p h => hI.sa p (opt _ _ _ h), fun p h => hI.phi p (opt _ _ _ h), fun p h => hI.plcp p (opt _ _ _ h),
    fun o h => ⟨(hI.lcp o (opt _ _ _ h)).1, hptr o (opt _ _ _ h)⟩, fun o h => ⟨(hI.isa o (opt _ _ _ h)).1, hptr' o (opt _ _ _ h)⟩⟩

omit F in
theorem map_some {α : Type} {f : α → α} {o : Option α} {p : α} (h : o.map f = some p) : ∃ q, o = some q ∧ f q = p := by
  cases o with
  | none => cases h
  | some q => exact ⟨q, rfl, Option.some.inj h⟩

theorem compressSA_eq {s : St} (hI : Inv C k s) : compressSA s = s := by
  unfold compressSA
  cases h : s.sa with
  | none => rw [Option.map_none, ← h]
  | some p =>
    have h1 := hI.sa p h
    have h2 : packTo (bitsFor p.2.length) p.2 = p.2 := by
      rw [h1, F.saLen]
      exact F.saP true
    rw [Option.map_some, h2]
    show ({ s with sa := some p } : St) = s
    rw [← h]

theorem compressPhi_spec {s : St} (hI : Inv C k s) : Inv C k (compressPhi s) ∧ (compressPhi s).has = s.has := by
  refine ⟨⟨hI.sa, ?_, hI.plcp, fun o ho => ⟨(hI.lcp o ho).1, (hI.lcp o ho).2.mono fun p hp => hp⟩,
    fun o ho => ⟨(hI.isa o ho).1, (hI.isa o ho).2.mono fun p hp => hp⟩⟩, ?_⟩
  · intro p hp
    obtain ⟨q, h1, rfl⟩ := map_some hp
    show packTo (bitsFor q.vals.length) q.vals = _
    rw [hI.phi q h1, F.phiLen]
    exact F.phiP true
  · funext x
    cases x <;> simp [compressPhi, St.has]

omit F in
theorem compressPlcp_spec {s : St} (hI : Inv C k s) : Inv C k (compressPlcp s) ∧ (compressPlcp s).has = s.has := by
  refine ⟨⟨hI.sa, hI.phi, ?_, fun o ho => ⟨(hI.lcp o ho).1, (hI.lcp o ho).2.mono fun p hp => hp⟩,
    fun o ho => ⟨(hI.isa o ho).1, (hI.isa o ho).2.mono fun p hp => hp⟩⟩, ?_⟩
  · intro p hp
    obtain ⟨q, h1, rfl⟩ := map_some hp
    obtain ⟨h2, h3⟩ := hI.plcp q h1
    refine ⟨?_, h3⟩
    show PV k (packTo (bitsFor q.max) q.vals)
    rw [h3]
    exact h2.packTo
  · funext x
    cases x <;> simp [compressPlcp, St.has]

theorem packLcp_spec {s : St} (hI : Inv C k s) :
    Inv C k { s with lcp := s.lcp.map LcpObj.pack } ∧ St.has { s with lcp := s.lcp.map LcpObj.pack } = s.has := by
  refine ⟨⟨hI.sa, hI.phi, hI.plcp, ?_, fun o ho => ⟨(hI.isa o ho).1, (hI.isa o ho).2.mono fun p hp => hp⟩⟩, ?_⟩
  · intro p hp
    obtain ⟨q, h1, rfl⟩ := map_some hp
    obtain ⟨h2, h3⟩ := hI.lcp q h1
    cases q with
    | array v mx =>
      obtain ⟨a, rfl, rfl⟩ := h2
      exact ⟨⟨a, F.lcpP true, rfl⟩, trivial⟩
    | compressed a mx sel => exact ⟨h2, h3.mono fun p hp => hp⟩
  · funext x
    cases x <;> simp [St.has]

theorem packIsa_spec {s : St} (hI : Inv C k s) :
    Inv C k { s with isa := s.isa.map IsaObj.pack } ∧ St.has { s with isa := s.isa.map IsaObj.pack } = s.has := by
  refine ⟨⟨hI.sa, hI.phi, hI.plcp, fun o ho => ⟨(hI.lcp o ho).1, (hI.lcp o ho).2.mono fun p hp => hp⟩, ?_⟩, ?_⟩
  · intro p hp
    obtain ⟨q, h1, rfl⟩ := map_some hp
    obtain ⟨h2, h3⟩ := hI.isa q h1
    cases q with
    | array v =>
      obtain ⟨a, rfl⟩ := h2
      refine ⟨⟨a, ?_⟩, trivial⟩
      rw [F.isaLen]
      exact F.isaP true
    | sparse a t hs r sc => exact ⟨h2, h3.mono fun p hp => hp⟩
  · funext x
    cases x <;> simp [St.has]

/-- one of the five parts of `require`: afterwards the structures present are what was there and requested, and `x` -/
structure Part (C : Cfg) (k : K) (x : DS) (s s' : St) : Prop where
  inv : Inv C k s'
  req : s'.req = s.req
  cm : s'.cm = s.cm
  keep : ∀ y, s.has y = true → s.req.has y = true → s'.has y = true
  only : s.req.has x = true → (s'.has x = true ∧ ∀ y, s'.has y = true → s.req.has y = true)
  skip : s.req.has x = false → s' = s

omit F in
theorem Part.of {x : DS} {s : St} {r : St} (hx : s.req.has x = true) (hk : (C.lk = .plain ∧ C.ik = .plain) ∨ s.req.sa = true)
    (hI : Inv C k r) (hg : Grows s r) (hr : r.has x = true) {s' : St} (hs' : Inv C k (discard r) → Inv C k s' ∧ s'.has = (discard r).has)
    (hreq : s'.req = r.req) (hcm : s'.cm = r.cm) : Part C k x s s' := by
  obtain ⟨a, b⟩ := hs' (discard_inv hI (by rw [hg.req]; exact hk))
  refine ⟨a, hreq.trans hg.req, hcm.trans hg.cm, ?_, fun _ => ⟨?_, ?_⟩, ?_⟩
  · intro y h1 h2
    rw [b, discard_has, hg.keep y h1 h2, hg.req, h2]
    rfl
  · rw [b, discard_has, hr, hg.req, hx]
    rfl
  · intro y hy
    rw [b, discard_has, hg.req] at hy
    exact (Bool.and_eq_true_iff.mp hy).2
  · intro h
    rw [hx] at h
    cases h

omit F in
theorem Part.refl {x : DS} {s : St} (hx : s.req.has x = false) (hI : Inv C k s) : Part C k x s s :=
  ⟨hI, rfl, rfl, fun _ h _ => h, fun h => (by rw [hx] at h; cases h), fun _ => rfl⟩

theorem reqSA_part (m : Mode) {s : St} (hI : Inv C k s) (hk : (C.lk = .plain ∧ C.ik = .plain) ∨ s.req.sa = true) : Part C k .sa s (reqSA C m s) := by
  unfold reqSA
  cases hx : s.req.sa with
  | false => exact Part.refl hx hI
  | true =>
    obtain ⟨a, b, c, -⟩ := needSA_spec F m hI
    exact Part.of (x := .sa) (s := s) hx hk a b (by simp [St.has, c]) (fun h => ⟨h, rfl⟩) rfl rfl

theorem reqPhi_part (m : Mode) {s : St} (hI : Inv C k s) (hk : (C.lk = .plain ∧ C.ik = .plain) ∨ s.req.sa = true) :
    ∃ s', reqPhi C m s = .ok s' ∧ Part C k .phi s s' := by
  unfold reqPhi
  cases hx : s.req.phi with
  | false => exact ⟨s, rfl, Part.refl hx hI⟩
  | true =>
    obtain ⟨r, e, a, b, c, -⟩ := needPhi_spec F m hI
    simp only [e]
    exact ⟨_, rfl, Part.of (x := .phi) (s := s) hx hk a b (by simp [St.has, c]) (fun h => ⟨h, rfl⟩) rfl rfl⟩

theorem reqPlcp_part (m : Mode) {s : St} (hI : Inv C k s) (hk : (C.lk = .plain ∧ C.ik = .plain) ∨ s.req.sa = true) :
    ∃ s', reqPlcp C m s = .ok s' ∧ Part C k .plcp s s' := by
  unfold reqPlcp
  cases hx : s.req.plcp with
  | false => exact ⟨s, rfl, Part.refl hx hI⟩
  | true =>
    obtain ⟨r, e, a, b, c, -⟩ := needPlcp_spec F m hI
    simp only [e]
    refine ⟨_, rfl, ?_⟩
    split
    · exact Part.of (x := .plcp) (s := s) hx hk a b (by simp [St.has, c]) (fun h => compressPlcp_spec h) rfl rfl
    · exact Part.of (x := .plcp) (s := s) hx hk a b (by simp [St.has, c]) (fun h => ⟨h, rfl⟩) rfl rfl

theorem reqLcp_part (m : Mode) {s : St} (hI : Inv C k s) (hk : (C.lk = .plain ∧ C.ik = .plain) ∨ s.req.sa = true) :
    ∃ s', reqLcp C m s = .ok s' ∧ Part C k .lcp s s' := by
  unfold reqLcp
  cases hx : s.req.lcp with
  | false => exact ⟨s, rfl, Part.refl hx hI⟩
  | true =>
    obtain ⟨r, e, a, b, c⟩ := needLcp_spec F m hI
    simp only [e]
    refine ⟨_, rfl, ?_⟩
    split
    · exact Part.of (x := .lcp) (s := s) hx hk a b (by simp [St.has, c]) (fun h => packLcp_spec F h) rfl rfl
    · exact Part.of (x := .lcp) (s := s) hx hk a b (by simp [St.has, c]) (fun h => ⟨h, rfl⟩) rfl rfl

theorem reqIsa_part (ht : ∀ t, C.ik = .sparse t → 1 ≤ t) (m : Mode) {s : St} (hI : Inv C k s)
    (hk : (C.lk = .plain ∧ C.ik = .plain) ∨ s.req.sa = true) :
    ∃ s', reqIsa C m s = .ok s' ∧ Part C k .isa s s' := by
  unfold reqIsa
  cases hx : s.req.isa with
  | false => exact ⟨s, rfl, Part.refl hx hI⟩
  | true =>
    obtain ⟨r, e, a, b, c⟩ := needIsa_spec F ht m hI
    simp only [e]
    refine ⟨_, rfl, ?_⟩
    split
    · exact Part.of (x := .isa) (s := s) hx hk a b (by simp [St.has, c]) (fun h => packIsa_spec F h) rfl rfl
    · exact Part.of (x := .isa) (s := s) hx hk a b (by simp [St.has, c]) (fun h => ⟨h, rfl⟩) rfl rfl

theorem require_spec (ht : ∀ t, C.ik = .sparse t → 1 ≤ t) (f : Flags) (cm : Option Mode) {s : St} (hI : Inv C k s)
    (hk : (C.lk = .plain ∧ C.ik = .plain) ∨ f.sa = true) :
    ∃ s', require C f cm s = .ok s' ∧ Inv C k s' ∧ s'.req = f ∧ s'.cm = s.cm ∧ (∀ x, f.has x = true → s'.has x = true) ∧
      ((∃ x, f.has x = true) → ∀ x, s'.has x = true → f.has x = true) := by
  have hI0 : Inv C k { s with req := f } :=
    ⟨hI.sa, hI.phi, hI.plcp, fun o ho => ⟨(hI.lcp o ho).1, (hI.lcp o ho).2.mono fun p hp => hp⟩,
      fun o ho => ⟨(hI.isa o ho).1, (hI.isa o ho).2.mono fun p hp => hp⟩⟩
  generalize hs0 : ({ s with req := f } : St) = s0 at hI0
  have hr0 : s0.req = f := by rw [← hs0]
  have hc0 : s0.cm = s.cm := by rw [← hs0]
  have p0 := reqSA_part F (reqMode cm s) hI0 (by rw [hr0]; exact hk)
  obtain ⟨s1, e1, p1⟩ := reqPhi_part F (reqMode cm s) p0.inv (by rw [p0.req, hr0]; exact hk)
  have r1 := p1.req.trans (p0.req.trans hr0)
  obtain ⟨s2, e2, p2⟩ := reqPlcp_part F (reqMode cm s) p1.inv (by rw [r1]; exact hk)
  have r2 := p2.req.trans r1
  obtain ⟨s3, e3, p3⟩ := reqLcp_part F (reqMode cm s) p2.inv (by rw [r2]; exact hk)
  have r3 := p3.req.trans r2
  obtain ⟨s4, e4, p4⟩ := reqIsa_part F ht (reqMode cm s) p3.inv (by rw [r3]; exact hk)
  have r4 := p4.req.trans r3
  have c4 := p4.cm.trans (p3.cm.trans (p2.cm.trans (p1.cm.trans (p0.cm.trans hc0))))
  have hall : ∀ x, f.has x = true → s4.has x = true := by
    intro x hx
    have k4 : ∀ y, f.has y = true → s3.has y = true → s4.has y = true := fun y h1 h2 => p4.keep y h2 (by rw [r3]; exact h1)
    have k3 : ∀ y, f.has y = true → s2.has y = true → s3.has y = true := fun y h1 h2 => p3.keep y h2 (by rw [r2]; exact h1)
    have k2 : ∀ y, f.has y = true → s1.has y = true → s2.has y = true := fun y h1 h2 => p2.keep y h2 (by rw [r1]; exact h1)
    have k1 : ∀ y, f.has y = true → (reqSA C (reqMode cm s) s0).has y = true → s1.has y = true :=
      fun y h1 h2 => p1.keep y h2 (by rw [p0.req, hr0]; exact h1)
    cases x with
    | sa => exact k4 _ hx (k3 _ hx (k2 _ hx (k1 _ hx (p0.only (by rw [hr0]; exact hx)).1)))
    | phi => exact k4 _ hx (k3 _ hx (k2 _ hx (p1.only (by rw [p0.req, hr0]; exact hx)).1))
    | plcp => exact k4 _ hx (k3 _ hx (p2.only (by rw [r1]; exact hx)).1)
    | lcp => exact k4 _ hx (p3.only (by rw [r2]; exact hx)).1
    | isa => exact (p4.only (by rw [r3]; exact hx)).1
  have honly : (∃ x, f.has x = true) → ∀ x, s4.has x = true → f.has x = true := by
    rintro ⟨x, hx⟩ y hy
    by_cases h4 : f.has .isa = true
    · rw [← r3]; exact (p4.only (by rw [r3]; exact h4)).2 y hy
    rw [p4.skip (by rw [r3]; simpa using h4)] at hy
    by_cases h3 : f.has .lcp = true
    · rw [← r2]; exact (p3.only (by rw [r2]; exact h3)).2 y hy
    rw [p3.skip (by rw [r2]; simpa using h3)] at hy
    by_cases h2 : f.has .plcp = true
    · rw [← r1]; exact (p2.only (by rw [r1]; exact h2)).2 y hy
    rw [p2.skip (by rw [r1]; simpa using h2)] at hy
    by_cases h1 : f.has .phi = true
    · have := (p1.only (by rw [p0.req, hr0]; exact h1)).2 y hy
      rw [p0.req, hr0] at this
      exact this
    rw [p1.skip (by rw [p0.req, hr0]; simpa using h1)] at hy
    by_cases h0 : f.has .sa = true
    · rw [← hr0]; exact (p0.only (by rw [hr0]; exact h0)).2 y hy
    cases x <;> contradiction
  unfold require
  rw [hs0, e1]
  simp only [Except.bind, e2, e3, e4]
  split
  · rw [compressSA_eq F p4.inv]
    obtain ⟨a, b⟩ := compressPhi_spec F p4.inv
    obtain ⟨a', b'⟩ := compressPlcp_spec a
    exact ⟨_, rfl, a', r4, c4, fun x hx => by rw [b', b]; exact hall x hx, fun h x hx => by rw [b', b] at hx; exact honly h x hx⟩
  · exact ⟨_, rfl, p4.inv, r4, c4, hall, honly⟩

/-- what a client reads from a structure that is present -/
theorem read_spec (ht : ∀ t, C.ik = .sparse t → 1 ≤ t) {s : St} (hI : Inv C k s) (x : DS) (hx : s.has x = true) :
    Reads C.text C.saOf x (read s x) ∧ (x = .lcp → (∀ i, i < C.text.length → ∃ v, read s .lcp i = .ok v) ∧ (C.lk = .plain → read s .lcp 0 = .ok 0)) := by
  cases x with
  | sa =>
    obtain ⟨p, hp⟩ := Option.isSome_iff_exists.mp hx
    refine ⟨?_, by simp⟩
    intro i v hv
    simp only [read, hp, hI.sa p hp]
    exact vget_ok hv
  | phi =>
    obtain ⟨p, hp⟩ := Option.isSome_iff_exists.mp hx
    refine ⟨?_, by simp⟩
    have : read s .phi = vget k.phi := by
      funext i
      simp only [read, hp, hI.phi p hp]
    rw [this]
    exact F.phiR
  | plcp =>
    obtain ⟨p, hp⟩ := Option.isSome_iff_exists.mp hx
    refine ⟨?_, by simp⟩
    have : read s .plcp = vget p.vals := by
      funext i
      simp only [read, hp]
    rw [this]
    exact F.plcpR _ (hI.plcp p hp).1
  | lcp =>
    obtain ⟨p, hp⟩ := Option.isSome_iff_exists.mp hx
    obtain ⟨h1, h2⟩ := hI.lcp p hp
    cases p with
    | array v mx =>
      obtain ⟨a, rfl, rfl⟩ := h1
      have : read s .lcp = vget k.lcp := by
        funext i
        simp only [read, hp]
      rw [this]
      refine ⟨F.lcpR, fun _ => ⟨fun i hi => ⟨_, vget_ok (List.getElem?_eq_getElem (by rw [F.lcpLen]; exact hi))⟩, fun _ => vget_ok F.lcp0⟩⟩
    | compressed a mx sel =>
      obtain ⟨hk, rfl, v, c, hv, hc, rfl⟩ := h1
      obtain ⟨w, hw⟩ := h2
      obtain ⟨c', e, f1, f2, f3, f4⟩ := F.clcp v hv
      rw [hc] at e
      cases e
      have : read s .lcp = c.get := by
        funext i
        have := hI.sa _ hw
        simp only [read, hp, deref, hw, if_true]
        change CL.CLCP.get ⟨w, k.mx, c.sel⟩ i = c.get i
        change w = C.saOf at this
        rw [this, ← f1, ← f2]
      rw [this]
      exact ⟨f4, fun _ => ⟨f3, fun h => by rw [hk] at h; cases h⟩⟩
  | isa =>
    obtain ⟨p, hp⟩ := Option.isSome_iff_exists.mp hx
    obtain ⟨h1, h2⟩ := hI.isa p hp
    refine ⟨?_, by simp⟩
    cases p with
    | array v =>
      obtain ⟨a, rfl⟩ := h1
      have : read s .isa = vget k.isa := by
        funext i
        simp only [read, hp]
      rw [this]
      exact F.isaR
    | sparse a t hs rank sc =>
      obtain ⟨hk, S, hS, rfl, rfl, rfl⟩ := h1
      obtain ⟨w, hw⟩ := h2
      obtain ⟨S', e, f1, f2⟩ := F.sparse t (ht t hk)
      rw [hS] at e
      cases e
      have : read s .isa = SI.query S (t + 1) := by
        funext i
        have := hI.sa _ hw
        simp only [read, hp, deref, hw, if_true]
        change SI.query ⟨w, S.hs, S.rank, S.sc⟩ (t + 1) i = SI.query S (t + 1) i
        change w = C.saOf at this
        rw [this, ← f1]
      rw [this]
      exact f2

end

end TObj
end Tdc
