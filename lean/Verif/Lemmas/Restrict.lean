import Verif.Model.Restrict
import Mathlib.Data.List.Basic
import Mathlib.Data.List.Nodup
import Mathlib.Data.UInt
import Mathlib.Order.Basic
import Mathlib.Data.List.Sort

/-! # Lemmas about input restrictions -/

namespace Tdc

/-! ## sort and dedup -/

theorem mem_uniq {a : UInt8} : ∀ {l : List UInt8}, a ∈ uniq l ↔ a ∈ l
  | [] => by simp [uniq]
  | [b] => by simp [uniq]
  | b :: c :: l => by
    unfold uniq
    split
    · rename_i h
      subst h
      rw [mem_uniq]
      simp
    · rw [List.mem_cons, mem_uniq (l := c :: l)]
      simp

theorem uniq_sorted : ∀ {l : List UInt8}, l.Pairwise (· ≤ ·) → (uniq l).Pairwise (· < ·)
  | [], _ => by simp [uniq]
  | [b], _ => by simp [uniq]
  | b :: c :: l, h => by
    unfold uniq
    split
    · exact uniq_sorted (List.pairwise_cons.1 h).2
    · rename_i hne
      rw [List.pairwise_cons]
      refine ⟨?_, uniq_sorted (List.pairwise_cons.1 h).2⟩
      intro x hx
      rw [mem_uniq] at hx
      have h1 : b ≤ c := (List.pairwise_cons.1 h).1 c (by simp)
      have h2 : c ≤ x := by
        rcases List.mem_cons.1 hx with rfl | hx
        · exact UInt8.le_refl _
        · exact (List.pairwise_cons.1 (List.pairwise_cons.1 h).2).1 x hx
      have : b < c := by
        rcases UInt8.lt_or_eq_of_le h1 with h | h
        · exact h
        · exact absurd h hne
      exact UInt8.lt_of_lt_of_le this h2

theorem mem_sortDedup {a : UInt8} {l : List UInt8} : a ∈ sortDedup l ↔ a ∈ l := by
  rw [sortDedup, mem_uniq, List.mem_mergeSort]

theorem sortDedup_sorted (l : List UInt8) : (sortDedup l).Pairwise (· < ·) := by
  apply uniq_sorted
  have := List.pairwise_mergeSort (le := fun a b : UInt8 => decide (a ≤ b))
    (by intro a b c; simp; exact UInt8.le_trans)
    (by intro a b; simp; exact UInt8.le_total a b) l
  simpa using this

theorem sorted_ext : ∀ {l₁ l₂ : List UInt8}, l₁.Pairwise (· < ·) → l₂.Pairwise (· < ·) →
    (∀ a, a ∈ l₁ ↔ a ∈ l₂) → l₁ = l₂
  | [], [], _, _, _ => rfl
  | [], b :: _, _, _, h => by have := (h b).2 (by simp); simp at this
  | a :: _, [], _, _, h => by have := (h a).1 (by simp); simp at this
  | a :: l₁, b :: l₂, h₁, h₂, h => by
    rw [List.pairwise_cons] at h₁ h₂
    have hab : a = b := by
      rcases List.mem_cons.1 ((h a).1 (by simp)) with e | e
      · exact e
      · rcases List.mem_cons.1 ((h b).2 (by simp)) with e' | e'
        · exact e'.symm
        · exact absurd (h₁.1 _ e') (UInt8.lt_asymm (h₂.1 _ e))
    subst hab
    congr 1
    apply sorted_ext h₁.2 h₂.2
    intro x
    constructor
    · intro hx
      rcases List.mem_cons.1 ((h x).1 (List.mem_cons_of_mem _ hx)) with e | e
      · subst e; exact absurd (h₁.1 _ hx) (UInt8.lt_irrefl _)
      · exact e
    · intro hx
      rcases List.mem_cons.1 ((h x).2 (List.mem_cons_of_mem _ hx)) with e | e
      · subst e; exact absurd (h₂.1 _ hx) (UInt8.lt_irrefl _)
      · exact e

theorem nodup_of_sorted {l : List UInt8} (h : l.Pairwise (· < ·)) : l.Nodup :=
  h.imp (fun hab => by rintro rfl; exact UInt8.lt_irrefl _ hab)

/-! ## the escape map -/

theorem pickRepl_eq (esc : List UInt8) : ∀ (pool repl : List UInt8), repl.length ≤ esc.length + 1 →
    pickRepl esc pool repl
      = repl ++ (pool.filter (fun b => !(esc.contains b))).take (esc.length + 1 - repl.length)
  | [], repl, _ => by simp [pickRepl]
  | b :: pool, repl, h => by
    unfold pickRepl
    by_cases hc : esc.contains b = true
    · rw [if_neg (by rw [hc]; simp), pickRepl_eq esc pool repl h,
        List.filter_cons_of_neg (by rw [hc]; simp)]
    · by_cases hl : repl.length < esc.length + 1
      · rw [if_pos (by rw [Bool.and_eq_true]; exact ⟨by simpa using hc, by simpa using hl⟩),
          pickRepl_eq esc pool _ (by simp; omega), List.filter_cons_of_pos (by simpa using hc)]
        rw [List.append_assoc]
        congr 1
        have : esc.length + 1 - repl.length = (esc.length + 1 - (repl ++ [b]).length) + 1 := by
          simp; omega
        rw [this, List.take_succ_cons]
        rfl
      · rw [if_neg (by simp [hl]), pickRepl_eq esc pool repl h]
        have : esc.length + 1 - repl.length = 0 := by omega
        simp [this]

/-- There are enough bytes left in the pool to escape every forbidden byte and the escape byte. -/
def CanEscape (r : Restr) : Prop :=
  r.esc = [] ∨ r.esc.length + 1 ≤ (escapePool.filter (fun b => !(r.esc.contains b))).length

instance (r : Restr) : Decidable (CanEscape r) := by unfold CanEscape; infer_instance

/-- What the two lookup tables of one restriction satisfy. -/
structure EscOk (r : Restr) (f : FastEsc) (u : FastUnesc) : Prop where
  flag : ∀ b, f.flag b = if b = f.escapeByte ∨ b ∈ r.esc then 1 else 0
  mapId : ∀ b, ¬ (b = f.escapeByte ∨ b ∈ r.esc) → f.map b = b
  unmap : ∀ b, (b = f.escapeByte ∨ b ∈ r.esc) → u.map (f.map b) = b
  mapFree : ∀ b, (b = f.escapeByte ∨ b ∈ r.esc) → f.map b ∉ r.esc
  escFree : f.escapeByte ∉ r.esc
  mapEsc : f.map f.escapeByte = f.escapeByte
  escNZ : f.escapeByte ≠ 0
  escEm : ∃ em, EscMap.make r = .ok em ∧ em.escapeByte = f.escapeByte
  escEq : u.escapeByte = f.escapeByte
  fnt : f.nt = r.nt
  unt : u.nt = r.nt
  has : u.hasEscape = true

theorem fastEscLoop_spec : ∀ (eb rb : List UInt8) (f : FastEsc), eb.length = rb.length → eb.Nodup →
    ∃ g, fastEscLoop eb rb f = .ok g ∧
      (∀ i (h : i < eb.length) (h' : i < rb.length), g.map eb[i] = rb[i]) ∧
      (∀ b, b ∉ eb → g.map b = f.map b ∧ g.flag b = f.flag b) ∧
      (∀ b, b ∈ eb → g.flag b = 1)
  | [], rb, f, h, _ => ⟨f, rfl, by intro i h; simp at h, by intro b _; exact ⟨rfl, rfl⟩, by simp⟩
  | e :: eb, [], f, h, _ => by simp at h
  | e :: eb, r :: rb, f, h, hn => by
    rw [List.nodup_cons] at hn
    obtain ⟨g, hg, h1, h2, h3⟩ := fastEscLoop_spec eb rb
      { f with map := fun b => if b = e then r else f.map b
               flag := fun b => if b = e then 1 else f.flag b } (by simpa using h) hn.2
    refine ⟨g, hg, ?_, ?_, ?_⟩
    · intro i hi hi'
      cases i with
      | zero => simp [(h2 e hn.1).1]
      | succ i => simpa using h1 i (by simpa using hi) (by simpa using hi')
    · intro b hb
      rw [List.mem_cons, not_or] at hb
      obtain ⟨ha, hb'⟩ := h2 b hb.2
      exact ⟨by rw [ha]; simp [hb.1], by rw [hb']; simp [hb.1]⟩
    · intro b hb
      by_cases hm : b ∈ eb
      · exact h3 b hm
      · rcases List.mem_cons.1 hb with rfl | hb
        · rw [(h2 b hm).2]; simp
        · exact absurd hb hm

theorem fastUnescLoop_spec : ∀ (eb rb : List UInt8) (m : UInt8 → UInt8), eb.length = rb.length →
    rb.Nodup →
    ∃ g, fastUnescLoop eb rb m = .ok g ∧
      (∀ i (h : i < eb.length) (h' : i < rb.length), g rb[i] = eb[i]) ∧
      (∀ b, b ∉ rb → g b = m b)
  | [], rb, m, h, _ => ⟨m, rfl, by intro i h; simp at h, by intro b _; rfl⟩
  | e :: eb, [], f, h, _ => by simp at h
  | e :: eb, r :: rb, m, h, hn => by
    rw [List.nodup_cons] at hn
    obtain ⟨g, hg, h1, h2⟩ := fastUnescLoop_spec eb rb
      (fun b => if b = r then e else m b) (by simpa using h) hn.2
    refine ⟨g, hg, ?_, ?_⟩
    · intro i hi hi'
      cases i with
      | zero => simp [h2 r hn.1]
      | succ i => simpa using h1 i (by simpa using hi) (by simpa using hi')
    · intro b hb
      rw [List.mem_cons, not_or] at hb
      rw [h2 b hb.2]; simp [hb.1]

theorem escOk_of (r : Restr) (hn : r.esc.Nodup) (hne : r.esc ≠ []) (hc : CanEscape r) :
    ∃ f u, fastEscOf r = .ok f ∧ fastUnescOf r = .ok u ∧ EscOk r f u := by
  have hc := hc.resolve_left hne
  have hp := pickRepl_eq r.esc escapePool [] (by simp)
  simp only [List.nil_append, List.length_nil, Nat.sub_zero] at hp
  have hlen : (pickRepl r.esc escapePool []).length = r.esc.length + 1 := by
    rw [hp, List.length_take]; omega
  have hnod : (pickRepl r.esc escapePool []).Nodup := by
    rw [hp]
    exact ((by decide : escapePool.Nodup).filter _).sublist (List.take_sublist _ _)
  have hfree : ∀ b ∈ pickRepl r.esc escapePool [], b ∉ r.esc := by
    intro b hb
    rw [hp] at hb
    have := List.mem_of_mem_take hb
    simpa using (List.mem_filter.1 this).2
  cases hrep : pickRepl r.esc escapePool [] with
  | nil => rw [hrep] at hlen; simp at hlen
  | cons e repl =>
    rw [hrep] at hlen hnod hfree
    have hem : EscMap.make r = .ok ⟨e :: repl, e :: r.esc, r.nt⟩ := by
      unfold EscMap.make
      rw [if_neg (by simpa using hne), hrep]
    have hl : (e :: r.esc).length = (e :: repl).length := by simpa using hlen.symm
    have hefree : e ∉ r.esc := hfree e (by simp)
    obtain ⟨f, hf, f1, f2, f3⟩ := fastEscLoop_spec (e :: r.esc) (e :: repl) FastEsc.default hl
      (List.nodup_cons.2 ⟨hefree, hn⟩)
    obtain ⟨g, hg, g1, g2⟩ := fastUnescLoop_spec (e :: r.esc) (e :: repl) (fun b => b) hl hnod
    refine ⟨{ f with escapeByte := e, nt := r.nt }, ⟨g, e, r.nt, true⟩, ?_, ?_, ?_⟩
    · unfold fastEscOf FastEsc.make
      rw [hem]
      simp only [hf]
      rfl
    · unfold fastUnescOf FastUnesc.make
      rw [hem]
      simp only [hg]
      rfl
    · constructor
      · intro b
        simp only
        split
        · rename_i h
          exact f3 b (List.mem_cons.2 h)
        · rename_i h
          exact (f2 b (by rw [List.mem_cons]; exact h)).2
      · intro b h
        exact (f2 b (by rw [List.mem_cons]; exact h)).1
      · intro b h
        obtain ⟨i, hi, rfl⟩ := List.mem_iff_getElem.1 (List.mem_cons.2 h)
        simp only
        rw [f1 i hi (hl ▸ hi), g1 i hi (hl ▸ hi)]
      · intro b h
        obtain ⟨i, hi, rfl⟩ := List.mem_iff_getElem.1 (List.mem_cons.2 h)
        simp only
        rw [f1 i hi (hl ▸ hi)]
        exact hfree _ (List.getElem_mem _)
      · exact hefree
      · exact f1 0 (by simp) (by simp)
      · intro h0
        have h1 : e ∈ pickRepl r.esc escapePool [] := by rw [hrep]; simp
        rw [hp] at h1
        have h2 := (List.mem_filter.1 (List.mem_of_mem_take h1)).1
        simp only at h0
        rw [h0] at h2
        revert h2
        decide
      · exact ⟨_, hem, rfl⟩
      · rfl
      · rfl
      · rfl
      · rfl

/-! ## escaping a list -/

/-- One escaped byte. -/
def escByte (f : FastEsc) (b : UInt8) : List UInt8 :=
  if f.flag b ≠ 0 then [f.escapeByte, f.map b] else [f.map b]

/-- The escaped text. -/
def escList (f : FastEsc) (t : List UInt8) : List UInt8 := t.flatMap (escByte f)

/-- The terminator. -/
def ntList (r : Restr) : List UInt8 := if r.nt then [0] else []

/-- The flags of a table are 0 or 1. -/
def Flag01 (f : FastEsc) : Prop := ∀ b, f.flag b = 0 ∨ f.flag b = 1

theorem EscOk.flag01 {r f u} (h : EscOk r f u) : Flag01 f := by
  intro b; rw [h.flag b]; split <;> simp

theorem escByte_length {f : FastEsc} (h : Flag01 f) (b : UInt8) : (escByte f b).length = 1 + f.flag b := by
  unfold escByte
  rcases h b with h | h <;> simp [h]

theorem escList_append (f : FastEsc) (s t : List UInt8) : escList f (s ++ t) = escList f s ++ escList f t := by
  simp [escList]

theorem escList_length_foldl {f : FastEsc} (h : Flag01 f) (t : List UInt8) :
    ∀ x, t.foldl (fun extra c => extra + f.flag c) x + t.length = x + (escList f t).length := by
  induction t with
  | nil => simp [escList]
  | cons c t ih =>
    intro x
    simp only [List.foldl_cons, List.length_cons, escList, List.flatMap_cons, List.length_append]
    have := ih (x + f.flag c)
    rw [escByte_length h]
    simp only [escList] at this
    omega

theorem storeB_ok {bytes : List UInt8} {i : Nat} {b : UInt8} (h : i < bytes.length) :
    storeB bytes i b = .ok (bytes.set i b) := by simp [storeB, h]


theorem split_last {X : List UInt8} {n : Nat} (h : X.length = n + 1) :
    ∃ X0 x, X = X0 ++ [x] ∧ X0.length = n := by
  refine ⟨X.dropLast, X.getLast (by intro e; simp [e] at h), ?_, by simp [h]⟩
  rw [List.dropLast_append_getLast]

theorem set_at {a b : List UInt8} {x y : UInt8} {i : Nat} (h : a.length = i) :
    (a ++ x :: b).set i y = a ++ y :: b := by
  subst h; simp

theorem getElem?_at {a b : List UInt8} {x : UInt8} {i : Nat} (h : a.length = i) :
    (a ++ x :: b)[i]? = some x := by
  subst h; simp

theorem length_le_escList {f : FastEsc} (hf : Flag01 f) (t : List UInt8) :
    t.length ≤ (escList f t).length := by
  have := escList_length_foldl hf t 0
  omega

theorem escLoop_inplace (f : FastEsc) (hf : Flag01 f) (pre : List UInt8) :
    ∀ (t mid post : List UInt8), (t ++ mid).length = (escList f t).length →
      escLoop f none pre.length t.length (pre.length + (t ++ mid).length) (pre ++ (t ++ mid) ++ post)
        = .ok (pre ++ escList f t ++ post) := by
  intro t
  induction t using List.reverseRecOn with
  | nil =>
    intro mid post h
    have : mid = [] := by simpa [escList] using h
    simp [escLoop, escList, this]
  | append_singleton t c ih =>
    intro mid post h
    have hL : (escList f (t ++ [c])).length = (escList f t).length + (1 + f.flag c) := by
      rw [escList_append, List.length_append]
      simp [escList, escByte_length hf]
    have ht := length_le_escList hf t
    have hlen : (t ++ [c] ++ mid).length = t.length + 1 + mid.length := by simp; omega
    rw [hL, hlen] at h
    rw [List.length_append, List.length_singleton, hlen, escLoop]
    rw [show pre ++ (t ++ [c] ++ mid) ++ post = (pre ++ t) ++ c :: (mid ++ post) by simp,
      getElem?_at (by simp)]
    simp only
    rw [if_neg (by omega), storeB_ok (by simp; omega)]
    simp only
    obtain ⟨X0, x, hX, hX0⟩ := split_last (X := c :: mid) (n := mid.length) (by simp)
    rw [show pre ++ t ++ c :: (mid ++ post) = (pre ++ t ++ X0) ++ x :: post by
        rw [show c :: (mid ++ post) = (c :: mid) ++ post by simp, hX]; simp,
      set_at (by simp; omega)]
    rcases hf c with h0 | h1
    · rw [if_neg (by simp [h0])]
      have := ih X0 (f.map c :: post) (by simp; omega)
      rw [show (t ++ X0).length = t.length + mid.length by simp [hX0]] at this
      rw [show pre.length + (t.length + 1 + mid.length) - 1 = pre.length + (t.length + mid.length) by omega,
        show pre ++ t ++ X0 ++ f.map c :: post = pre ++ (t ++ X0) ++ f.map c :: post by simp, this,
        escList_append]
      simp [escList, escByte, h0]
    · rw [if_pos (by simp [h1]), if_neg (by omega)]
      obtain ⟨X1, y, hX1, hX1l⟩ := split_last (X := X0) (n := mid.length - 1) (by omega)
      rw [storeB_ok (by simp; omega)]
      simp only
      rw [hX1, show pre ++ t ++ (X1 ++ [y]) ++ f.map c :: post
          = (pre ++ t ++ X1) ++ y :: (f.map c :: post) by simp, set_at (by simp; omega)]
      have := ih X1 (f.escapeByte :: f.map c :: post) (by simp; omega)
      rw [show (t ++ X1).length = t.length + mid.length - 1 by simp [hX1l]; omega] at this
      rw [show pre.length + (t.length + 1 + mid.length) - 2 = pre.length + (t.length + mid.length - 1) by omega,
        show pre ++ t ++ X1 ++ f.escapeByte :: f.map c :: post
          = pre ++ (t ++ X1) ++ f.escapeByte :: f.map c :: post by simp, this, escList_append]
      simp [escList, escByte, h1]

theorem escLoop_separate (f : FastEsc) (hf : Flag01 f) (pre s : List UInt8) :
    ∀ (t : List UInt8), t <+: s → ∀ (X post : List UInt8), X.length = (escList f t).length →
      escLoop f (some s) 0 t.length (pre.length + X.length) (pre ++ X ++ post)
        = .ok (pre ++ escList f t ++ post) := by
  intro t
  induction t using List.reverseRecOn with
  | nil =>
    intro _ X post h
    have : X = [] := by simpa [escList] using h
    simp [escLoop, escList, this]
  | append_singleton t c ih =>
    intro hs X post h
    have hL : (escList f (t ++ [c])).length = (escList f t).length + (1 + f.flag c) := by
      rw [escList_append, List.length_append]
      simp [escList, escByte_length hf]
    rw [hL] at h
    have hts : t <+: s := List.IsPrefix.trans (List.prefix_append t [c]) hs
    rw [List.length_append, List.length_singleton, escLoop]
    simp only [Nat.zero_add]
    have hread : s[t.length]? = some c := by
      obtain ⟨w, rfl⟩ := hs
      simp
    rw [hread]
    simp only
    rw [if_neg (by omega), storeB_ok (by simp; omega)]
    simp only
    obtain ⟨X0, x, hX, hX0⟩ := split_last (X := X) (n := X.length - 1) (by omega)
    rw [show pre ++ X ++ post = (pre ++ X0) ++ x :: post by
        conv => lhs; rw [hX]
        simp,
      set_at (by simp; omega)]
    rcases hf c with h0 | h1
    · rw [if_neg (by simp [h0])]
      have := ih hts X0 (f.map c :: post) (by omega)
      rw [show pre.length + X.length - 1 = pre.length + X0.length by omega, this, escList_append]
      simp [escList, escByte, h0]
    · rw [if_pos (by simp [h1]), if_neg (by omega)]
      obtain ⟨X1, y, hX1, hX1l⟩ := split_last (X := X0) (n := X.length - 2) (by omega)
      rw [storeB_ok (by simp; omega)]
      simp only
      rw [hX1, show pre ++ (X1 ++ [y]) ++ f.map c :: post
          = (pre ++ X1) ++ y :: (f.map c :: post) by simp, set_at (by simp; omega)]
      have := ih hts X1 (f.escapeByte :: f.map c :: post) (by omega)
      rw [show pre.length + X.length - 2 = pre.length + X1.length by omega, this, escList_append]
      simp [escList, escByte, h1]

theorem copyLoop_spec (pre s : List UInt8) :
    ∀ (t : List UInt8), t <+: s → ∀ (X post : List UInt8), X.length = t.length →
      copyLoop s 0 t.length (pre.length + X.length) (pre ++ X ++ post) = .ok (pre ++ t ++ post) := by
  intro t
  induction t using List.reverseRecOn with
  | nil =>
    intro _ X post h
    have : X = [] := by simpa using h
    simp [copyLoop, this]
  | append_singleton t c ih =>
    intro hs X post h
    have hts : t <+: s := List.IsPrefix.trans (List.prefix_append t [c]) hs
    simp only [List.length_append, List.length_singleton] at h
    rw [List.length_append, List.length_singleton, copyLoop]
    simp only [Nat.zero_add]
    have hread : s[t.length]? = some c := by
      obtain ⟨w, rfl⟩ := hs
      simp
    rw [hread]
    simp only
    rw [if_neg (by omega), storeB_ok (by simp; omega)]
    simp only
    obtain ⟨X0, x, hX, hX0⟩ := split_last (X := X) (n := X.length - 1) (by omega)
    rw [show pre ++ X ++ post = (pre ++ X0) ++ x :: post by
        conv => lhs; rw [hX]
        simp,
      set_at (by simp; omega)]
    have := ih hts X0 (c :: post) (by omega)
    rw [show pre.length + X.length - 1 = pre.length + X0.length by omega, this]
    simp

/-! ## what a restricted text is -/

/-- The table used by a restriction: the identity if nothing is escaped. -/
def tableOf (r : Restr) (f : FastEsc) : Prop :=
  (r.esc = [] ∧ (∀ b, f.flag b = 0) ∧ (∀ b, f.map b = b)) ∨ 
  (r.esc ≠ [] ∧ fastEscOf r = .ok f ∧ Flag01 f ∧ ∀ b, f.flag b = 0 → f.map b = b)

theorem tableOf.flag01 {r f} (h : tableOf r f) : Flag01 f := by
  rcases h with ⟨_, h, _⟩ | ⟨_, _, h, _⟩
  · exact fun b => .inl (h b)
  · exact h

theorem escList_id {f : FastEsc} (h : ∀ b, f.flag b = 0) (hm : ∀ b, f.map b = b) (t : List UInt8) :
    escList f t = t := by
  induction t with
  | nil => rfl
  | cons c t ih =>
    simp only [escList, List.flatMap_cons] at ih ⊢
    rw [ih]
    simp [escByte, h, hm]

theorem escList_eq_self {f : FastEsc} (h : Flag01 f) (hm : ∀ b, f.flag b = 0 → f.map b = b) {t : List UInt8}
    (hl : (escList f t).length = t.length) : escList f t = t := by
  induction t with
  | nil => rfl
  | cons c t ih =>
    simp only [escList, List.flatMap_cons, List.length_append, List.length_cons, escByte_length h] at ih hl ⊢
    have := length_le_escList h t
    simp only [escList] at this
    rw [ih (by omega)]
    have h0 : f.flag c = 0 := by omega
    simp [escByte, h0, hm c h0]

/-- The restricted text. -/
def restricted (r : Restr) (f : FastEsc) (t : List UInt8) : List UInt8 := escList f t ++ ntList r

theorem ntList_length (r : Restr) : (ntList r).length = if r.nt then 1 else 0 := by
  unfold ntList; split <;> simp

theorem extraSize_spec {r : Restr} {f : FastEsc} (h : tableOf r f) (t : List UInt8) :
    ∃ x, extraSize r t = .ok x ∧ x + t.length = (restricted r f t).length := by
  unfold extraSize Restr.hasNoEscape restricted
  rcases h with ⟨h, h1, h2⟩ | ⟨h, h1, h2, _⟩
  · rw [if_neg (by simp [h])]
    refine ⟨_, rfl, ?_⟩
    rw [escList_id h1 h2, List.length_append, ntList_length]
    split <;> omega
  · rw [if_pos (by simpa using h), h1]
    refine ⟨_, rfl, ?_⟩
    have := escList_length_foldl h2 t 0
    rw [List.length_append, ntList_length]
    split <;> omega

theorem escapeWithIters_inplace {r : Restr} {f : FastEsc} (h : tableOf r f)
    (pre t mid post : List UInt8) (hl : (t ++ mid).length = (escList f t).length) :
    escapeWithIters r none pre.length t.length (pre.length + (t ++ mid).length) (pre ++ (t ++ mid) ++ post)
      = .ok (pre ++ escList f t ++ post) := by
  unfold escapeWithIters Restr.hasNoEscape
  rcases h with ⟨h, h1, h2⟩ | ⟨h, h1, h2, _⟩
  · rw [if_neg (by simp [h])]
    rw [escList_id h1 h2] at hl ⊢
    have : mid = [] := by simpa using hl
    simp [this]
  · rw [if_pos (by simpa using h), h1]
    exact escLoop_inplace f h2 pre t mid post hl

theorem escapeWithIters_separate {r : Restr} {f : FastEsc} (h : tableOf r f)
    (pre t X post : List UInt8) (hl : X.length = (escList f t).length) :
    escapeWithIters r (some t) 0 t.length (pre.length + X.length) (pre ++ X ++ post)
      = .ok (pre ++ escList f t ++ post) := by
  unfold escapeWithIters Restr.hasNoEscape
  rcases h with ⟨h, h1, h2⟩ | ⟨h, h1, h2, _⟩
  · rw [if_neg (by simp [h])]
    rw [escList_id h1 h2] at hl ⊢
    exact copyLoop_spec pre t t (List.prefix_refl t) X post hl
  · rw [if_pos (by simpa using h), h1]
    exact escLoop_separate f h2 pre t t (List.prefix_refl t) X post hl

/-! ## init -/

theorem pageRound_ge {ps : Nat} (hps : 0 < ps) (n : Nat) : n ≤ pageRound ps n := by
  unfold pageRound
  have := Nat.div_add_mod (max 1 n + ps - 1) ps
  have h2 := Nat.mod_lt (max 1 n + ps - 1) hps
  rw [Nat.mul_comm] at this
  omega

theorem initView_spec {ps : Nat} (hps : 0 < ps) {r : Restr} {f : FastEsc} (h : tableOf r f)
    {source s : List UInt8} {frm : Nat} {upto : Option Nat} (hs : sliceV source frm upto = .ok s) :
    initView ps r source frm upto = .ok (restricted r f s) := by
  unfold initView
  rw [hs]
  simp only
  obtain ⟨x, hx, hxl⟩ := extraSize_spec h s
  rw [hx]
  simp only
  have hr : (restricted r f s).length = (escList f s).length + (if r.nt then 1 else 0) := by
    rw [restricted, List.length_append, ntList_length]
  by_cases h0 : x = 0
  · rw [if_neg (by simp [h0])]
    congr 1
    have hle := length_le_escList h.flag01 s
    have hnt : r.nt = false := by
      cases hn : r.nt
      · rfl
      · rw [hn] at hr; simp at hr; omega
    rw [hnt] at hr
    have h2 : (escList f s).length = s.length := by simp at hr; omega
    rw [restricted, ntList, hnt]
    simp only [Bool.false_eq_true, if_false, List.append_nil]
    rcases h with ⟨_, h1, h2⟩ | ⟨hne, hf, h01, hid⟩
    · rw [escList_id h1 h2]
    · exact (escList_eq_self h01 hid h2).symm
  · rw [if_pos h0]
    set noff := if r.nt then 1 else 0 with hnoff
    have hz : (Mem.alloc ps (s.length + x)).bytes
        = [] ++ List.replicate (escList f s).length 0
          ++ List.replicate (pageRound ps (s.length + x) - (escList f s).length) 0 := by
      simp only [Mem.alloc, List.nil_append, List.replicate_append_replicate]
      congr 1
      have := pageRound_ge hps (s.length + x)
      omega
    have := escapeWithIters_separate h [] s (List.replicate (escList f s).length 0)
      (List.replicate (pageRound ps (s.length + x) - (escList f s).length) 0) (by simp)
    rw [hz, show s.length + x - noff = ([] : List UInt8).length +
      (List.replicate (escList f s).length (0 : UInt8)).length by simp; omega, this]
    simp only [Mem.view, List.nil_append]
    congr 1
    have hpg := pageRound_ge hps (s.length + x)
    rw [restricted, ntList]
    generalize pageRound ps (s.length + x) = pg at *
    rw [show s.length + x = (escList f s).length + noff by omega, List.take_length_add_append]
    congr 1
    rw [List.take_replicate]
    rw [Nat.min_eq_left (by omega)]
    rw [hnoff]
    split <;> simp

/-- Escaping in place within a longer buffer. -/
theorem inplace_write {r : Restr} {f : FastEsc} (h : tableOf r f) (pre t rest : List UInt8)
    (hl : (restricted r f t).length ≤ t.length + rest.length) :
    ∃ b, escapeWithIters r none pre.length t.length (pre.length + (escList f t).length) (pre ++ t ++ rest)
        = .ok b ∧
      b = pre ++ escList f t ++ rest.drop ((escList f t).length - t.length) ∧
      (r.nt = true → ∃ post, storeB b (pre.length + (escList f t).length) 0
        = .ok (pre ++ restricted r f t ++ post)) := by
  have hle := length_le_escList h.flag01 t
  have hrl : (restricted r f t).length = (escList f t).length + (if r.nt then 1 else 0) := by
    rw [restricted, List.length_append, ntList_length]
  have hn : (escList f t).length - t.length ≤ rest.length := by omega
  have e := escapeWithIters_inplace h pre t (rest.take ((escList f t).length - t.length))
    (rest.drop ((escList f t).length - t.length)) (by simp; omega)
  rw [show pre.length + (t ++ rest.take ((escList f t).length - t.length)).length
      = pre.length + (escList f t).length by simp; omega,
    show pre ++ (t ++ rest.take ((escList f t).length - t.length)) ++ rest.drop ((escList f t).length - t.length)
      = pre ++ t ++ rest by simp] at e
  refine ⟨_, e, rfl, ?_⟩
  intro hnt
  rw [hnt] at hrl
  simp only [if_true] at hrl
  cases hd : rest.drop ((escList f t).length - t.length) with
  | nil =>
    have := congrArg List.length hd
    simp at this
    omega
  | cons y ys =>
    refine ⟨ys, ?_⟩
    rw [storeB_ok (by simp), set_at (by simp), restricted, ntList, hnt]
    simp

theorem initFile_spec {ps : Nat} (hps : 0 < ps) {r : Restr} {f : FastEsc} (h : tableOf r f)
    {file s : List UInt8} {frm : Nat} {upto : Option Nat} (hs : sliceV file frm upto = .ok s)
    (hfit : file.length - nextValidOffset ps frm
      ≤ pageRound ps ((restricted r f s).length + (frm - nextValidOffset ps frm))) :
    initFile ps r file frm upto = .ok (restricted r f s) := by
  unfold initFile
  unfold sliceV at hs
  simp only at hs ⊢
  split at hs
  case isFalse => simp at hs
  rename_i hb
  obtain ⟨hb1, hb2⟩ := hb
  generalize upto.getD file.length = e at *
  simp only [Except.ok.injEq] at hs
  rw [if_neg (by omega)]
  have hs' : (file.drop frm).take (e - frm) = s := by
    rw [← hs, List.drop_take]
  have hsl : s.length = e - frm := by rw [← hs']; simp; omega
  rw [hs']
  obtain ⟨x, hx, hxl⟩ := extraSize_spec h s
  rw [hx]
  simp only
  have hal : nextValidOffset ps frm ≤ frm := by unfold nextValidOffset; omega
  generalize nextValidOffset ps frm = al at *
  have hpg := pageRound_ge hps ((restricted r f s).length + (frm - al))
  rw [show e - frm + x + (frm - al) = (restricted r f s).length + (frm - al) by omega]
  have hm : Mem.ofFile ps file ((restricted r f s).length + (frm - al)) al
      = .ok ⟨file.drop al ++ List.replicate (pageRound ps ((restricted r f s).length + (frm - al))
          - (file.drop al).length) 0, (restricted r f s).length + (frm - al)⟩ := by
    unfold Mem.ofFile Mem.alloc
    simp only [List.length_replicate]
    rw [if_neg (by simp; omega)]
    simp
  rw [hm]
  simp only
  -- split the memory
  obtain ⟨rest, hrest, hrl⟩ : ∃ rest, file.drop al ++ List.replicate (pageRound ps ((restricted r f s).length + (frm - al))
          - (file.drop al).length) 0 = (file.drop al).take (frm - al) ++ s ++ rest ∧
          frm - al + s.length + rest.length = pageRound ps ((restricted r f s).length + (frm - al)) := by
    refine ⟨(file.drop e) ++ List.replicate (pageRound ps ((restricted r f s).length + (frm - al))
          - (file.drop al).length) 0, ?_, ?_⟩
    · rw [← List.append_assoc]
      congr 1
      rw [← hs', List.append_assoc]
      have e1 : (file.drop frm).take (e - frm) ++ file.drop e = file.drop frm := by
        have := List.take_append_drop (e - frm) (file.drop frm)
        rw [List.drop_drop, show frm + (e - frm) = e by omega] at this
        exact this
      rw [e1]
      have := List.take_append_drop (frm - al) (file.drop al)
      rw [List.drop_drop, show al + (frm - al) = frm by omega] at this
      exact this.symm
    · simp; omega
  rw [hrest]
  have hpre : ((file.drop al).take (frm - al)).length = frm - al := by simp; omega
  generalize (file.drop al).take (frm - al) = pre at *
  obtain ⟨b, hb', hbeq, hbn⟩ := inplace_write h pre s rest (by omega)
  have hrlen : (restricted r f s).length = (escList f s).length + (if r.nt then 1 else 0) := by
    rw [restricted, List.length_append, ntList_length]
  by_cases hnone : r.hasNone = true
  · rw [if_pos hnone]
    congr 1
    simp only [Restr.hasNone, Restr.hasNoEscape, Bool.and_eq_true, List.isEmpty_iff, beq_iff_eq] at hnone
    have hid : restricted r f s = s := by
      rcases h with ⟨_, h1, h2⟩ | ⟨h1, _⟩
      · rw [restricted, escList_id h1 h2, ntList, hnone.2]; simp
      · exact absurd hnone.1 h1
    rw [hid, Mem.view]
    simp only
    rw [← hpre, Nat.add_comm, List.append_assoc, List.take_length_add_append, List.drop_left, List.take_left']
    rfl
  · rw [if_neg hnone]
    rw [show frm - al + (e - frm) + x - (if r.nt = true then 1 else 0) = pre.length + (escList f s).length by omega,
      ← hsl, ← hpre, hb']
    simp only
    cases hnt : r.nt with
    | true =>
      obtain ⟨post, hp⟩ := hbn hnt
      simp only [if_true, hp]
      congr 1
      rw [Mem.view]
      simp only
      rw [Nat.add_comm, List.append_assoc, List.take_length_add_append, List.drop_left, List.take_left']
      rfl
    | false =>
      simp only [Bool.false_eq_true, if_false]
      congr 1
      have : restricted r f s = escList f s := by simp [restricted, ntList, hnt]
      rw [Mem.view, hbeq, this]
      simp only
      rw [Nat.add_comm, List.append_assoc, List.take_length_add_append, List.drop_left, List.take_left']
      rfl

theorem remap_bytes {ps : Nat} (hps : 0 < ps) (m : Mem) (n : Nat) :
    (m.remap ps n).bytes.length = pageRound ps n ∧ (m.remap ps n).size = n ∧
    ∀ a z, m.bytes = a ++ List.replicate z 0 → a.length ≤ pageRound ps n →
      ∃ z', (m.remap ps n).bytes = a ++ List.replicate z' 0 := by
  refine ⟨by simp [Mem.remap]; omega, rfl, ?_⟩
  intro a z h hl
  refine ⟨pageRound ps n - a.length, ?_⟩
  simp only [Mem.remap, h]
  rw [List.take_append, List.take_of_length_le hl, List.take_replicate, List.append_assoc,
    List.replicate_append_replicate]
  congr 2
  simp
  omega

theorem fillLoop_spec {ps : Nat} (hps : 0 < ps) (f : FastEsc) : ∀ (input read : List UInt8) (m : Mem)
    (cap extra z : Nat), m.bytes = read ++ List.replicate z 0 → cap ≤ m.bytes.length → read.length ≤ cap →
    0 < cap →
    ∃ m' z', fillLoop ps f input m cap read.length extra
        = .ok (m', (read ++ input).length, input.foldl (fun x c => x + f.flag c) extra) ∧
      m'.bytes = read ++ input ++ List.replicate z' 0 := by
  intro input
  induction input with
  | nil =>
    intro read m cap extra z hm hc hr h0
    rw [fillLoop]
    split
    · exact ⟨m, z, by simp, by simpa using hm⟩
    · obtain ⟨h1, h2, h3⟩ := remap_bytes hps m (2 * cap)
      have hge := pageRound_ge hps (2 * cap)
      obtain ⟨z', hz'⟩ := h3 read z hm (by omega)
      exact ⟨m.remap ps (2 * cap), z', by simp, by simpa using hz'⟩
  | cons c input ih =>
    intro read m cap extra z hm hc hr h0
    rw [fillLoop]
    -- state after the possible growth
    have key : ∃ (m1 : Mem) (cap1 z1 : Nat),
        (if read.length < cap then m else m.remap ps (2 * cap)) = m1 ∧
        (if read.length < cap then cap else 2 * cap) = cap1 ∧
        m1.bytes = read ++ List.replicate z1 0 ∧ cap1 ≤ m1.bytes.length ∧ read.length < cap1 := by
      by_cases hlt : read.length < cap
      · exact ⟨m, cap, z, by simp [hlt], by simp [hlt], hm, hc, hlt⟩
      · obtain ⟨h1, h2, h3⟩ := remap_bytes hps m (2 * cap)
        have hge := pageRound_ge hps (2 * cap)
        obtain ⟨z', hz'⟩ := h3 read z hm (by omega)
        exact ⟨_, 2 * cap, z', by simp [hlt], by simp [hlt], hz', by omega, by omega⟩
    obtain ⟨m1, cap1, z1, e1, e2, hb, hcap, hlt⟩ := key
    simp only [e1, e2]
    rw [storeB_ok (by omega)]
    simp only
    have hz : 0 < z1 := by
      rcases Nat.eq_zero_or_pos z1 with h | h
      · subst h; simp at hb; rw [hb] at hcap; omega
      · exact h
    obtain ⟨z2, rfl⟩ : ∃ z2, z1 = z2 + 1 := ⟨z1 - 1, by omega⟩
    have hset : m1.bytes.set read.length c = (read ++ [c]) ++ List.replicate z2 0 := by
      rw [hb, List.replicate_succ, set_at rfl]; simp
    rw [hset]
    obtain ⟨m', z', h1, h2⟩ := ih (read ++ [c]) ⟨(read ++ [c]) ++ List.replicate z2 0, m1.size⟩ cap1
      (extra + f.flag c) z2 rfl (by
        have := congrArg List.length hb
        simp at this ⊢; omega) (by simp; omega) (by omega)
    refine ⟨m', z', ?_, by simpa using h2⟩
    simp only [List.length_append, List.length_singleton, List.append_assoc] at h1 ⊢
    rw [h1]
    simp
    omega

theorem initStream_spec {ps : Nat} (hps : 0 < ps) {r : Restr} {f : FastEsc} (h : tableOf r f)
    (input : List UInt8) :
    ∃ m, initStream ps r input = .ok m ∧ m.view = restricted r f input ∧
      m.size = (restricted r f input).length ∧ m.size ≤ m.bytes.length := by
  unfold initStream
  -- the table chosen is a table of `r`
  obtain ⟨g, hg, hgt, hgl, hge⟩ : ∃ g, (if !r.hasNoEscape then fastEscOf r else .ok FastEsc.default) = .ok g ∧
      tableOf r g ∧ escList g input = escList f input ∧ Flag01 g := by
    rcases h with ⟨h, h1, h2⟩ | ⟨h, h1, h2, h3⟩
    · refine ⟨FastEsc.default, by simp [Restr.hasNoEscape, h], .inl ⟨h, fun _ => rfl, fun _ => rfl⟩, ?_, fun _ => .inl rfl⟩
      rw [escList_id h1 h2, escList_id (fun _ => rfl) (fun _ => rfl)]
    · exact ⟨f, by simp [Restr.hasNoEscape, h, h1], .inr ⟨h, h1, h2, h3⟩, rfl, h2⟩
  rw [hg]
  simp only
  have hge' := pageRound_ge hps ps
  obtain ⟨m, z, hfl, hmb⟩ := fillLoop_spec hps g input [] (Mem.alloc ps ps) ps (if r.nt then 1 else 0)
    (pageRound ps ps) (by simp [Mem.alloc]) (by simpa [Mem.alloc] using hge') (by simp) hps
  simp only [List.length_nil, List.nil_append] at hfl hmb
  rw [hfl]
  simp only
  have hlen := escList_length_foldl hge input (if r.nt then 1 else 0)
  have hrl : (restricted r g input).length = (escList g input).length + (if r.nt then 1 else 0) := by
    rw [restricted, List.length_append, ntList_length]
  have hext : input.length + input.foldl (fun x c => x + g.flag c) (if r.nt = true then 1 else 0)
      = (restricted r g input).length := by omega
  rw [hext]
  have hle := length_le_escList hge input
  obtain ⟨h1, h2, h3⟩ := remap_bytes hps m (restricted r g input).length
  have hpg := pageRound_ge hps (restricted r g input).length
  obtain ⟨z', hz'⟩ := h3 input z hmb (by omega)
  have hzl := congrArg List.length hz'
  simp only [List.length_append, List.length_replicate, h1] at hzl
  rw [hz']
  obtain ⟨b, hb1, hb2, _⟩ := inplace_write hgt [] input (List.replicate z' 0) (by simp; omega)
  simp only [List.length_nil, List.nil_append, Nat.zero_add] at hb1 hb2
  rw [show (restricted r g input).length - (if r.nt = true then 1 else 0) = (escList g input).length by omega,
    hb1]
  have heq : restricted r g input = restricted r f input := by simp [restricted, hgl]
  refine ⟨_, rfl, ?_, ?_, ?_⟩
  · rw [Mem.view]
    simp only [h2]
    rw [hb2, hrl, List.take_length_add_append, ← heq, restricted]
    congr 1
    rw [List.drop_replicate, List.take_replicate, Nat.min_eq_left (by omega), ntList]
    split <;> simp
  · rw [← heq]; exact h2
  · simp only [h2, hb2]
    simp
    omega

/-! ## unrestrict -/

/-- The unescape table undoes the escape table on this byte, the way `unrestrict` reads it. -/
def Undo (u : FastUnesc) (f : FastEsc) (c : UInt8) : Prop :=
  (escByte f c = [c] ∧ c ≠ u.escapeByte) ∨ (∃ y, escByte f c = [u.escapeByte, y] ∧ u.map y = c)

theorem EscOk.undo {r f u} (h : EscOk r f u) (c : UInt8) : Undo u f c := by
  unfold Undo escByte
  by_cases hc : c = f.escapeByte ∨ c ∈ r.esc
  · right
    have := h.flag c
    rw [if_pos hc] at this
    exact ⟨f.map c, by rw [if_pos (by omega), h.escEq], h.unmap c hc⟩
  · left
    have := h.flag c
    rw [if_neg hc] at this
    refine ⟨by rw [if_neg (by omega), h.mapId c hc], ?_⟩
    rw [h.escEq]
    exact fun e => hc (.inl e)

theorem unrestrictLoop_spec (u : FastUnesc) (f : FastEsc) : ∀ (t : List UInt8), (∀ c ∈ t, Undo u f c) →
    ∀ (fuel : Nat) (w junk post : List UInt8), t.length < fuel →
    ∃ post', unrestrictLoop u (w.length + junk.length + (escList f t).length) fuel
        (w.length + junk.length) w.length (w ++ junk ++ escList f t ++ post)
      = .ok (w.length + junk.length + (escList f t).length, w.length + t.length, w ++ t ++ post') ∧
      (w ++ t ++ post').length = (w ++ junk ++ escList f t ++ post).length := by
  intro t
  induction t with
  | nil =>
    intro _ fuel w junk post hf
    obtain ⟨fuel, rfl⟩ : ∃ k, fuel = k + 1 := ⟨fuel - 1, by simp at hf; omega⟩
    refine ⟨junk ++ post, ?_, by simp [escList]⟩
    simp [unrestrictLoop, escList]
  | cons c t ih =>
    intro hu fuel w junk post hf
    obtain ⟨fuel, rfl⟩ : ∃ k, fuel = k + 1 := ⟨fuel - 1, by simp at hf; omega⟩
    have hcons : escList f (c :: t) = escByte f c ++ escList f t := by simp [escList]
    rcases hu c (by simp) with ⟨he, hne⟩ | ⟨y, he, hy⟩
    · rw [hcons, he]
      rw [unrestrictLoop, if_neg (by simp)]
      rw [show w ++ junk ++ ([c] ++ escList f t) ++ post = (w ++ junk) ++ c :: (escList f t ++ post) by simp,
        getElem?_at (by simp)]
      simp only
      rw [if_neg hne, storeB_ok (by simp; omega)]
      simp only
      have hs : ∃ junk', (w ++ junk ++ c :: (escList f t ++ post)).set w.length c
          = (w ++ [c]) ++ junk' ++ escList f t ++ post ∧ junk'.length = junk.length := by
        cases junk with
        | nil => exact ⟨[], by simp, rfl⟩
        | cons j js =>
          refine ⟨js ++ [c], ?_, by simp⟩
          rw [show w ++ j :: js ++ c :: (escList f t ++ post) = w ++ j :: (js ++ c :: (escList f t ++ post)) by simp,
            set_at rfl]
          simp
      obtain ⟨junk', hs, hj⟩ := hs
      rw [hs]
      obtain ⟨post', h1, h2⟩ := ih (fun c hc => hu c (by simp [hc])) fuel (w ++ [c]) junk' post
        (by simp at hf; omega)
      refine ⟨post', ?_, ?_⟩
      · simp only [List.length_append, List.length_cons, hj, List.length_nil] at h1 ⊢
        rw [show w.length + junk.length + (0 + 1 + (escList f t).length)
            = w.length + (0 + 1) + junk.length + (escList f t).length by omega,
          show w.length + junk.length + 1 = w.length + (0 + 1) + junk.length by omega, h1]
        simp
        omega
      · simp at h2 ⊢; omega
    · rw [hcons, he]
      rw [unrestrictLoop, if_neg (by simp)]
      rw [show w ++ junk ++ ([u.escapeByte, y] ++ escList f t) ++ post
          = (w ++ junk) ++ u.escapeByte :: (y :: (escList f t ++ post)) by simp,
        getElem?_at (by simp)]
      simp only [if_true]
      rw [show (w ++ junk) ++ u.escapeByte :: (y :: (escList f t ++ post))
          = (w ++ junk ++ [u.escapeByte]) ++ y :: (escList f t ++ post) by simp,
        getElem?_at (by simp; omega)]
      simp only
      rw [hy, storeB_ok (by simp; omega)]
      simp only
      have hs : ∃ junk', (w ++ junk ++ [u.escapeByte] ++ y :: (escList f t ++ post)).set w.length c
          = (w ++ [c]) ++ junk' ++ escList f t ++ post ∧ junk'.length = junk.length + 1 := by
        cases junk with
        | nil => exact ⟨[y], by simp, by simp⟩
        | cons j js =>
          refine ⟨js ++ [u.escapeByte, y], ?_, by simp⟩
          rw [show w ++ j :: js ++ [u.escapeByte] ++ y :: (escList f t ++ post)
            = w ++ j :: (js ++ [u.escapeByte] ++ y :: (escList f t ++ post)) by simp,
            set_at rfl]
          simp
      obtain ⟨junk', hs, hj⟩ := hs
      rw [hs]
      obtain ⟨post', h1, h2⟩ := ih (fun c hc => hu c (by simp [hc])) fuel (w ++ [c]) junk' post
        (by simp at hf; omega)
      refine ⟨post', ?_, ?_⟩
      · simp only [List.length_append, List.length_singleton, List.length_cons, hj, List.length_nil] at h1 ⊢
        rw [show w.length + junk.length + (0 + 1 + 1 + (escList f t).length)
            = w.length + 1 + (junk.length + 1) + (escList f t).length by omega,
          show w.length + junk.length + 2 = w.length + 1 + (junk.length + 1) by omega, h1]
        simp
        omega
      · simp at h2 ⊢; omega


/-- A mapping whose view is the given text. -/
def Holds (m : Mem) (t : List UInt8) : Prop := m.view = t ∧ m.size = t.length ∧ m.size ≤ m.bytes.length

theorem Holds.bytes {m : Mem} {t : List UInt8} (h : Holds m t) : ∃ post, m.bytes = t ++ post := by
  refine ⟨m.bytes.drop m.size, ?_⟩
  have := List.take_append_drop m.size m.bytes
  rw [show m.bytes.take m.size = t from h.1] at this
  exact this.symm

theorem unrestrict_spec {ps : Nat} (hps : 0 < ps) {r : Restr} {f : FastEsc} {u : FastUnesc} (h : tableOf r f)
    (hu : fastUnescOf r = .ok u) {m : Mem} {t : List UInt8} (hm : Holds m (restricted r f t))
    (hundo : ∀ c ∈ t, Undo u f c) : ∃ m', unrestrict ps r m = .ok m' ∧ Holds m' t := by
  unfold unrestrict
  by_cases hnone : r.hasNone = true
  · rw [if_pos hnone]
    refine ⟨m, rfl, ?_⟩
    simp only [Restr.hasNone, Restr.hasNoEscape, Bool.and_eq_true, List.isEmpty_iff, beq_iff_eq] at hnone
    have hid : restricted r f t = t := by
      rcases h with ⟨_, h1, h2⟩ | ⟨h1, _⟩
      · rw [restricted, escList_id h1 h2, ntList, hnone.2]; simp
      · exact absurd hnone.1 h1
    rwa [hid] at hm
  · rw [if_neg hnone, hu]
    simp only
    obtain ⟨post, hb⟩ := hm.bytes
    have hrl : (restricted r f t).length = (escList f t).length + (if r.nt then 1 else 0) := by
      rw [restricted, List.length_append, ntList_length]
    have hle := length_le_escList h.flag01 t
    have hsz := hm.2.1
    have hcap := hm.2.2
    obtain ⟨post', h1, h2⟩ := unrestrictLoop_spec u f t hundo (m.bytes.length + 1) [] [] (ntList r ++ post)
      (by omega)
    simp only [List.length_nil, List.nil_append, Nat.zero_add, Nat.add_zero] at h1 h2
    rw [show m.size - (if r.nt = true then 1 else 0) = (escList f t).length by omega]
    have hb' : m.bytes = escList f t ++ (ntList r ++ post) := by rw [hb, restricted]; simp
    rw [← hb'] at h1 h2
    rw [h1]
    simp only
    refine ⟨_, rfl, ?_⟩
    rw [show m.size - ((escList f t).length - t.length + (if r.nt = true then 1 else 0)) = t.length by omega]
    have hpg := pageRound_ge hps t.length
    refine ⟨?_, rfl, ?_⟩
    · simp only [Mem.remap, Mem.view]
      rw [List.take_append_of_le_length (by
          rw [List.length_take]; simp at h2 ⊢; omega), List.take_take, Nat.min_eq_left hpg]
      simp
    · simp only [Mem.remap]
      simp
      omega

theorem restrictMem_spec {ps : Nat} (hps : 0 < ps) {old r : Restr} {f : FastEsc} (h : tableOf r f)
    (hold : old.hasNone = true) {m : Mem} {t : List UInt8} (hm : Holds m t) :
    ∃ m', restrictMem ps old r m = .ok m' ∧ Holds m' (restricted r f t) := by
  unfold restrictMem
  have hrl : (restricted r f t).length = (escList f t).length + (if r.nt then 1 else 0) := by
    rw [restricted, List.length_append, ntList_length]
  have hle := length_le_escList h.flag01 t
  by_cases he : old.eqv r = true
  · rw [if_pos he]
    refine ⟨m, rfl, ?_⟩
    simp only [Restr.hasNone, Restr.hasNoEscape, Bool.and_eq_true, List.isEmpty_iff, beq_iff_eq] at hold
    simp only [Restr.eqv, Bool.and_eq_true, beq_iff_eq, hold.1, hold.2] at he
    have hid : restricted r f t = t := by
      rcases h with ⟨_, h1, h2⟩ | ⟨h1, _⟩
      · rw [restricted, escList_id h1 h2, ntList, ← he.2]; simp
      · exact absurd he.1.symm h1
    rwa [hid]
  · rw [if_neg he, hm.1]
    obtain ⟨x, hx, hxl⟩ := extraSize_spec h t
    rw [hx]
    simp only
    by_cases h0 : x = 0
    · rw [if_pos h0]
      refine ⟨m, rfl, ?_⟩
      have hnt : r.nt = false := by
        cases hn : r.nt
        · rfl
        · rw [hn] at hrl; simp at hrl; omega
      have h2 : (escList f t).length = t.length := by rw [hnt] at hrl; simp at hrl; omega
      have : restricted r f t = t := by
        rw [restricted, ntList, hnt]
        simp only [Bool.false_eq_true, if_false, List.append_nil]
        rcases h with ⟨_, h1, h2⟩ | ⟨hne, hf, h01, hid⟩
        · rw [escList_id h1 h2]
        · exact escList_eq_self h01 hid h2
      rwa [this]
    · rw [if_neg h0]
      rw [show t.length + x = (restricted r f t).length by omega,
        show (restricted r f t).length - (if r.nt = true then 1 else 0) = (escList f t).length by omega]
      have hpg := pageRound_ge hps (restricted r f t).length
      obtain ⟨post, hb⟩ := hm.bytes
      obtain ⟨rest, hrest, hrestl⟩ : ∃ rest, (m.remap ps (restricted r f t).length).bytes = t ++ rest ∧
          t.length + rest.length = pageRound ps (restricted r f t).length := by
        refine ⟨post.take (pageRound ps (restricted r f t).length - t.length)
          ++ List.replicate (pageRound ps (restricted r f t).length - m.bytes.length) 0, ?_, ?_⟩
        · simp only [Mem.remap]
          conv => lhs; rw [hb]
          rw [List.take_append, List.take_of_length_le (by omega), hb]
          simp
        · have hbl : m.bytes.length = t.length + post.length := by rw [hb]; simp
          simp
          omega
      rw [hrest]
      obtain ⟨b, hb1, hb2, hb3⟩ := inplace_write h [] t rest (by omega)
      simp only [List.length_nil, List.nil_append, Nat.zero_add] at hb1 hb2 hb3
      rw [hb1]
      simp only
      have hsz : (m.remap ps (restricted r f t).length).size = (restricted r f t).length := rfl
      cases hnt : r.nt with
      | true =>
        obtain ⟨post', hp⟩ := hb3 hnt
        simp only [if_true, hp]
        refine ⟨_, rfl, ?_, hsz, ?_⟩
        · simp only [Mem.view, hsz]; simp
        · simp only [hsz]; simp
      | false =>
        simp only [Bool.false_eq_true, if_false]
        refine ⟨_, rfl, ?_, hsz, ?_⟩
        · have : restricted r f t = escList f t := by simp [restricted, ntList, hnt]
          show List.take (restricted r f t).length b = _
          rw [hb2, this, List.take_left']
          rfl
        · simp only [hsz, hb2]
          rw [hnt] at hrl
          simp at hrl ⊢
          omega

theorem tableOf_of {r : Restr} (hn : r.esc.Nodup) (hc : CanEscape r) :
    ∃ f u, tableOf r f ∧ fastEscOf r = .ok f ∧ fastUnescOf r = .ok u ∧ f.nt = r.nt ∧ u.nt = r.nt ∧
      ((r.esc = [] ∧ u = ⟨fun b => b, 255, r.nt, false⟩) ∨ EscOk r f u) := by
  by_cases hne : r.esc = []
  · refine ⟨⟨fun b => b, fun _ => 0, 255, r.nt⟩, ⟨fun b => b, 255, r.nt, false⟩,
      .inl ⟨hne, fun _ => rfl, fun _ => rfl⟩, ?_, ?_, rfl, rfl, .inl ⟨hne, rfl⟩⟩
    · simp [fastEscOf, EscMap.make, hne, FastEsc.make, fastEscLoop, FastEsc.default, EscMap.escapeByte,
        EscMap.hasEscape]
    · simp [fastUnescOf, EscMap.make, hne, FastUnesc.make, fastUnescLoop, EscMap.escapeByte,
        EscMap.hasEscape]
  · obtain ⟨f, u, h1, h2, h3⟩ := escOk_of r hn hne hc
    refine ⟨f, u, .inr ⟨hne, h1, h3.flag01, ?_⟩, h1, h2, h3.fnt, h3.unt, .inr h3⟩
    intro b hb
    apply h3.mapId b
    intro h
    rw [h3.flag b, if_pos h] at hb
    simp at hb

/-! ## streams -/

theorem pullAll_spec (f : FastEsc) (hf : Flag01 f) (hid : ∀ b, f.flag b = 0 → f.map b = b) :
    ∀ (fuel : Nat) (rest : List UInt8) (buf : Option UInt8) (ntd : Bool),
    buf.toList.length + 2 * rest.length + (if ntd then 0 else 1) ≤ fuel →
    pullAll f fuel (pullEscape f ⟨rest, buf, ntd⟩).1 (pullEscape f ⟨rest, buf, ntd⟩).2
      = .ok (buf.toList ++ escList f rest ++ (if f.nt && !ntd then [0] else [])) := by
  intro fuel
  induction fuel with
  | zero =>
    intro rest buf ntd h
    cases buf with
    | some b => simp at h
    | none =>
      cases rest with
      | cons c rest => simp at h
      | nil =>
        cases ntd with
        | false => simp at h
        | true => simp [pullEscape, pullAll, escList]
  | succ fuel ih =>
    intro rest buf ntd h
    cases buf with
    | some b =>
      have e : pullEscape f ⟨rest, some b, ntd⟩ = (some b, ⟨rest, none, ntd⟩) := rfl
      rw [e, pullAll]
      simp only
      rw [ih rest none ntd (by simp at h ⊢; omega)]
      simp
    | none =>
      cases rest with
      | cons c rest =>
        rcases hf c with h0 | h1
        · have e : pullEscape f ⟨c :: rest, none, ntd⟩ = (some c, ⟨rest, none, ntd⟩) := by
            simp [pullEscape, h0]
          rw [e, pullAll]
          simp only
          rw [ih rest none ntd (by simp at h ⊢; omega)]
          simp [escList, escByte, h0, hid c h0]
        · have e : pullEscape f ⟨c :: rest, none, ntd⟩ = (some f.escapeByte, ⟨rest, some (f.map c), ntd⟩) := by
            simp [pullEscape, h1]
          rw [e, pullAll]
          simp only
          rw [ih rest (some (f.map c)) ntd (by simp at h ⊢; omega)]
          simp [escList, escByte, h1]
      | nil =>
        by_cases hnt : (f.nt && !ntd) = true
        · have e : pullEscape f ⟨[], none, ntd⟩ = (some 0, ⟨[], none, true⟩) := by
            simp only [pullEscape]; rw [if_pos hnt]
          rw [e, pullAll]
          simp only
          rw [ih [] none true (by simp)]
          simp [hnt, escList]
        · have e : pullEscape f ⟨[], none, ntd⟩ = (none, ⟨[], none, ntd⟩) := by
            simp only [pullEscape]; rw [if_neg hnt]
          rw [e, pullAll]
          simp [hnt, escList]

theorem tableOf.mapId {r f} (h : tableOf r f) : ∀ b, f.flag b = 0 → f.map b = b := by
  rcases h with ⟨_, _, h⟩ | ⟨_, _, _, h⟩
  · exact fun b _ => h b
  · exact h

theorem readRestricted_spec {r : Restr} {f : FastEsc} (h : tableOf r f) (he : fastEscOf r = .ok f)
    (hnt : f.nt = r.nt) (t : List UInt8) : readRestricted r t = .ok (restricted r f t) := by
  unfold readRestricted
  by_cases hnone : r.hasNone = true
  · rw [if_pos hnone]
    simp only [Restr.hasNone, Restr.hasNoEscape, Bool.and_eq_true, List.isEmpty_iff, beq_iff_eq] at hnone
    rcases h with ⟨_, h1, h2⟩ | ⟨h1, _⟩
    · rw [restricted, escList_id h1 h2, ntList, hnone.2]; simp
    · exact absurd hnone.1 h1
  · rw [if_neg hnone, he]
    have := pullAll_spec f h.flag01 h.mapId (2 * t.length + 2) t none false (by simp)
    simp only at this ⊢
    rw [this]
    simp [restricted, ntList, hnt]

/-- Bytes held back by a `RestrictedOStreamBuf`. -/
def held (s : PushState) : List UInt8 := if s.sawNull then [0] else []

theorem pushUnescape_byte {r : Restr} {f : FastEsc} {u : FastUnesc} (h : tableOf r f)
    (ho : (r.esc = [] ∧ u = ⟨fun b => b, 255, r.nt, false⟩) ∨ EscOk r f u) (s : PushState)
    (hs : s.sawEscape = false) (c : UInt8) :
    ((escByte f c).foldl (pushUnescape u) s).sawEscape = false ∧
    ((escByte f c).foldl (pushUnescape u) s).out ++ held ((escByte f c).foldl (pushUnescape u) s)
      = s.out ++ held s ++ [c] := by
  obtain ⟨out, se, sn⟩ := s
  simp only at hs
  subst hs
  rcases ho with ⟨hne, rfl⟩ | ho
  · have hb : escByte f c = [c] := by
      rcases h with ⟨_, h1, h2⟩ | ⟨h1, _⟩
      · simp [escByte, h1, h2]
      · exact absurd hne h1
    rw [hb]
    simp only [List.foldl_cons, List.foldl_nil, pushUnescape]
    by_cases hc : (c == 0 && r.nt) = true
    · have hc0 : c = 0 := by simp at hc; exact hc.1
      simp only [hc]
      cases sn <;> simp [held, hc0]
    · simp only [hc]
      cases sn <;> simp [held]
  · have hu := ho.undo c
    rcases hu with ⟨hb, hne⟩ | ⟨y, hb, hy⟩
    · rw [hb]
      simp only [List.foldl_cons, List.foldl_nil, pushUnescape]
      rw [if_neg (by simp), if_neg (by simp [hne])]
      by_cases hc : (c == 0 && u.nt) = true
      · have hc0 : c = 0 := by simp at hc; exact hc.1
        rw [if_pos hc]
        cases sn <;> simp [held, hc0]
      · rw [if_neg hc]
        cases sn <;> simp [held]
    · rw [hb]
      simp only [List.foldl_cons, List.foldl_nil]
      have e : pushUnescape u ⟨out, false, sn⟩ u.escapeByte = ⟨out, true, sn⟩ := by
        simp [pushUnescape, ho.has]
      rw [e]
      simp only [pushUnescape, if_true, hy]
      cases sn <;> simp [held]

theorem pushUnescape_list {r : Restr} {f : FastEsc} {u : FastUnesc} (h : tableOf r f)
    (ho : (r.esc = [] ∧ u = ⟨fun b => b, 255, r.nt, false⟩) ∨ EscOk r f u) (t : List UInt8) :
    ∀ s : PushState, s.sawEscape = false →
    ((escList f t).foldl (pushUnescape u) s).sawEscape = false ∧
    ((escList f t).foldl (pushUnescape u) s).out ++ held ((escList f t).foldl (pushUnescape u) s)
      = s.out ++ held s ++ t := by
  induction t with
  | nil => intro s hs; simp [escList, hs]
  | cons c t ih =>
    intro s hs
    obtain ⟨h1, h2⟩ := pushUnescape_byte h ho s hs c
    simp only [escList, List.flatMap_cons, List.foldl_append] at ih ⊢
    obtain ⟨h3, h4⟩ := ih _ h1
    refine ⟨h3, ?_⟩
    rw [h4, h2]
    simp

theorem pushUnescape_noNull (u : FastUnesc) : ∀ (l : List UInt8) (s : PushState), u.nt = false →
    s.sawNull = false → (l.foldl (pushUnescape u) s).sawNull = false := by
  intro l
  induction l with
  | nil => intro s _ h; exact h
  | cons c l ih =>
    intro s hu hs
    refine ih _ hu ?_
    unfold pushUnescape
    split
    · rfl
    · split
      · exact hs
      · split
        · rename_i h; simp [hu] at h
        · rfl

theorem foldl_flatten_push (u : FastUnesc) : ∀ (chunks : List (List UInt8)) (s : PushState),
    chunks.foldl (fun s chunk => chunk.foldl (pushUnescape u) s) s = chunks.flatten.foldl (pushUnescape u) s := by
  intro chunks
  induction chunks with
  | nil => intro s; rfl
  | cons c cs ih => intro s; simp [List.foldl_append, ih]

theorem writeUnrestricted_spec {r : Restr} {f : FastEsc} {u : FastUnesc} (h : tableOf r f)
    (hu : fastUnescOf r = .ok u) (hnt : u.nt = r.nt)
    (ho : (r.esc = [] ∧ u = ⟨fun b => b, 255, r.nt, false⟩) ∨ EscOk r f u) (t : List UInt8)
    (chunks : List (List UInt8)) (hc : chunks.flatten = restricted r f t) :
    writeUnrestricted r chunks = .ok t := by
  unfold writeUnrestricted
  by_cases hnone : r.hasNone = true
  · rw [if_pos hnone, hc]
    simp only [Restr.hasNone, Restr.hasNoEscape, Bool.and_eq_true, List.isEmpty_iff, beq_iff_eq] at hnone
    rcases h with ⟨_, h1, h2⟩ | ⟨h1, _⟩
    · rw [restricted, escList_id h1 h2, ntList, hnone.2]; simp
    · exact absurd hnone.1 h1
  · rw [if_neg hnone, hu]
    simp only
    congr 1
    rw [foldl_flatten_push, hc, restricted, List.foldl_append]
    obtain ⟨h1, h2⟩ := pushUnescape_list h ho t ⟨[], false, false⟩ rfl
    have h3 := pushUnescape_noNull u (escList f t) ⟨[], false, false⟩
    generalize (escList f t).foldl (pushUnescape u) ⟨[], false, false⟩ = s at *
    simp only [held, List.nil_append, Bool.false_eq_true, if_false] at h2
    obtain ⟨out, se, sn⟩ := s
    simp only at h1 h2
    subst h1
    unfold ntList
    cases hr : r.nt with
    | true =>
      have hz : (u.hasEscape && (0 : UInt8) == u.escapeByte) = false := by
        rcases ho with ⟨_, rfl⟩ | ho
        · simp
        · rw [ho.escEq]
          simp [ho.escNZ.symm]
      simp only [if_true, List.foldl_cons, List.foldl_nil, pushUnescape, hnt, hr, hz]
      cases sn <;> simpa using h2
    | false =>
      simp only [Bool.false_eq_true, if_false, List.foldl_nil]
      simp only [hnt, hr, true_implies] at h3
      subst h3
      simpa using h2

end Tdc

namespace Tdc

theorem fastEscLoop_short : ∀ (eb rb : List UInt8) (f : FastEsc), rb.length < eb.length →
    fastEscLoop eb rb f = .error .ub
  | [], rb, f, h => by simp at h
  | e :: eb, [], f, _ => rfl
  | e :: eb, r :: rb, f, h => by
    rw [fastEscLoop]
    exact fastEscLoop_short eb rb _ (by simpa using h)

theorem fastEscOf_short {r : Restr} (h : ¬ CanEscape r) : ∃ e, fastEscOf r = .error e := by
  simp only [CanEscape, not_or, not_le] at h
  unfold fastEscOf EscMap.make
  rw [if_neg (by simpa using h.1)]
  have hp := pickRepl_eq r.esc escapePool [] (by simp)
  simp only [List.nil_append, List.length_nil, Nat.sub_zero] at hp
  cases hrep : pickRepl r.esc escapePool [] with
  | nil => exact ⟨.throw, rfl⟩
  | cons e repl =>
    refine ⟨.ub, ?_⟩
    simp only [FastEsc.make]
    rw [fastEscLoop_short]
    rw [← hrep, hp, List.length_take, List.length_cons]
    omega

/-- A loop of `unrestrict` that ends normally copied every byte iff it met no escape byte. -/
theorem unrestrictLoop_shrinks (u : FastUnesc) (dataEnd : Nat) : ∀ (fuel rp wp : Nat) (bytes : List UInt8)
    (rp' wp' : Nat) (b' : List UInt8), wp ≤ rp →
    unrestrictLoop u dataEnd fuel rp wp bytes = .ok (rp', wp', b') →
    rp' = dataEnd ∧ rp ≤ dataEnd ∧ wp' + rp ≤ wp + dataEnd ∧ wp ≤ wp' ∧
      (wp' + rp = wp + dataEnd → ∀ i, rp ≤ i → i < dataEnd → bytes[i]? ≠ some u.escapeByte) := by
  intro fuel
  induction fuel with
  | zero => intro rp wp bytes rp' wp' b' _ h; simp [unrestrictLoop] at h
  | succ fuel ih =>
    intro rp wp bytes rp' wp' b' hw h
    rw [unrestrictLoop] at h
    split at h
    · rename_i he
      simp only [Except.ok.injEq, Prod.mk.injEq] at h
      obtain ⟨rfl, rfl, rfl⟩ := h
      subst he
      exact ⟨rfl, Nat.le_refl _, by omega, Nat.le_refl _, by intro _ i h1 h2; omega⟩
    · cases hc : bytes[rp]? with
      | none => rw [hc] at h; simp at h
      | some c =>
        rw [hc] at h
        have hrl : rp < bytes.length := by
          have := List.getElem?_eq_some_iff.1 hc
          exact this.1
        simp only at h
        split at h
        · cases hd : bytes[rp + 1]? with
          | none => rw [hd] at h; simp at h
          | some d =>
            rw [hd] at h
            simp only [storeB_ok (show wp < bytes.length by omega)] at h
            obtain ⟨h1, h2, h3, h4, h5⟩ := ih _ _ _ _ _ _ (by omega) h
            exact ⟨h1, by omega, by omega, by omega, by omega⟩
        · rename_i hne
          simp only [storeB_ok (show wp < bytes.length by omega)] at h
          obtain ⟨h1, h2, h3, h4, h5⟩ := ih _ _ _ _ _ _ (by omega) h
          refine ⟨h1, by omega, by omega, by omega, ?_⟩
          intro he i hi1 hi2
          rcases Nat.eq_or_lt_of_le hi1 with rfl | hlt
          · rw [hc]; simp [hne]
          · have := h5 (by omega) i (by omega) hi2
            rw [List.getElem?_set_ne (by omega)] at this
            exact this

theorem restr_make_nodup (bs : List UInt8) (nt : Bool) : (Restr.make bs nt).esc.Nodup :=
  nodup_of_sorted (sortDedup_sorted bs)

theorem filter_not_contains_length (esc : List UInt8) : ∀ (pool : List UInt8), pool.Nodup →
    pool.length ≤ (pool.filter (fun b => !(esc.contains b))).length + esc.length := by
  induction esc with
  | nil => intro pool _; simp
  | cons e esc ih =>
    intro pool hp
    have h1 := ih (pool.erase e) (hp.erase e)
    have h2 : (pool.erase e).filter (fun b => !(esc.contains b)) = pool.filter (fun b => !((e :: esc).contains b)) := by
      rw [hp.erase_eq_filter, List.filter_filter]
      apply List.filter_congr
      intro b _
      by_cases hb : b = e <;> simp [hb]
    rw [h2] at h1
    have h3 : pool.length ≤ (pool.erase e).length + 1 := by
      rw [List.length_erase]; split <;> omega
    simp only [List.length_cons]
    omega

end Tdc
