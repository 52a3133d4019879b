import Verif.Spec.NnModule
import Mathlib.Tactic.Linarith

/-!
# C46: the state of a model
-/

namespace CrypTen.Nn

/-! ## Lists of children -/

theorem mapChildren_eq (flag : Bool) (f : Val → Val) : ∀ cs : List (String × Mod), mapChildren flag f cs = cs.map fun c => (c.1, c.2.mapTree flag f)
  | [] => rfl
  | (_, _) :: cs => by rw [mapChildren, mapChildren_eq flag f cs]; rfl

theorem everyChild_iff (P : Bool → List (String × Val) → List (String × Val) → Prop) :
    ∀ cs : List (String × Mod), EveryChild P cs ↔ ∀ c ∈ cs, c.2.Every P
  | [] => by simp [EveryChild]
  | (k, m) :: cs => by rw [EveryChild, everyChild_iff P cs]; simp

theorem height_le_children : ∀ {cs : List (String × Mod)} {c : String × Mod}, c ∈ cs → c.2.height ≤ heightChildren cs
  | (k, m) :: cs, c, h => by
    rw [heightChildren]
    rcases List.mem_cons.1 h with rfl | h
    · exact le_max_left _ _
    · exact (height_le_children h).trans (le_max_right _ _)

theorem secretsChildren_eq : ∀ cs : List (String × Mod), secretsChildren cs = cs.flatMap fun c => c.2.secrets
  | [] => rfl
  | (_, _) :: cs => by rw [secretsChildren, secretsChildren_eq cs]; rfl

/-! ## Loops without exceptions -/

/-- A loop whose body does not raise. -/
theorem loopDict_ok {α : Type} (f : α → Out α) (g : α → α) (S : α → List Tensor) :
    ∀ l : List (String × α), (∀ x ∈ l, ∃ r, r.Perm (S x.2) ∧ f x.2 = { val := g x.2, revealed := r, raised := false }) →
      ∃ r, r.Perm (l.flatMap fun x => S x.2) ∧ loopDict f l = { val := l.map fun x => (x.1, g x.2), revealed := r, raised := false }
  | [], _ => ⟨[], List.Perm.refl _, rfl⟩
  | (k, v) :: l, h => by
    obtain ⟨r, hr, e⟩ := h (k, v) (List.mem_cons_self ..)
    obtain ⟨r', hr', e'⟩ := loopDict_ok f g S l fun x hx => h x (List.mem_cons_of_mem _ hx)
    refine ⟨r ++ r', by simpa using hr.append hr', ?_⟩
    dsimp only at e
    rw [loopDict, e]
    dsimp only
    rw [e']
    rfl

/-- What `encrypt(mode)` should make of a value. -/
def conv (mode : Bool) (v : Val) : Val := if mode then v.toEnc else v.toPlain

/-- The flags match the state (one module). -/
def Own (e : Bool) (ps bs : List (String × Val)) : Prop :=
  if e then (∀ p ∈ ps, ∃ t, p.2 = .enc t) ∧ (∀ b ∈ bs, ∀ t, b.2 ≠ .plain t) else (∀ p ∈ ps, ∃ t, p.2 = .plain t) ∧ (∀ b ∈ bs, ∀ t, b.2 ≠ .enc t)

theorem encs_eq (l : List (String × Val)) : encs l = l.flatMap fun x => match x.2 with | .enc t => [t] | _ => [] := by
  induction l with
  | nil => rfl
  | cons x l ih =>
    obtain ⟨k, v⟩ := x
    rw [List.flatMap_cons, ← ih]
    cases v <;> simp [encs]

/-- The parameters and buffers of a module whose flag has the other value. -/
theorem encryptOwn_ok (mode : Bool) (ps bs : List (String × Val)) (h : Own (!mode) ps bs) :
    ∃ r, r.Perm (if mode then [] else encs ps ++ encs bs) ∧
      encryptOwn mode ps bs = { val := (ps.map fun p => (p.1, conv mode p.2), bs.map fun p => (p.1, conv mode p.2)), revealed := r, raised := false } := by
  obtain ⟨rp, hrp, ep⟩ := loopDict_ok (encryptParam mode) (conv mode) (fun v => if mode then [] else match v with | .enc t => [t] | _ => []) ps (by
    intro x hx
    cases mode
    · obtain ⟨t, ht⟩ := h.1 x hx
      exact ⟨[t], by rw [ht]; simp, by rw [ht]; rfl⟩
    · obtain ⟨t, ht⟩ := h.1 x hx
      exact ⟨[], by simp, by rw [ht]; rfl⟩)
  obtain ⟨rb, hrb, eb⟩ := loopDict_ok (encryptBuffer mode) (conv mode) (fun v => if mode then [] else match v with | .enc t => [t] | _ => []) bs (by
    intro x hx
    cases mode
    · have := h.2 x hx
      obtain ⟨k, v⟩ := x
      cases v with
      | plain t => exact absurd rfl (this t)
      | enc t => exact ⟨[t], by simp, rfl⟩
      | other n => exact ⟨[], by simp, rfl⟩
    · have := h.2 x hx
      obtain ⟨k, v⟩ := x
      cases v with
      | enc t => exact absurd rfl (this t)
      | plain t => exact ⟨[], by simp, rfl⟩
      | other n => exact ⟨[], by simp, rfl⟩)
  refine ⟨rp ++ rb, ?_, ?_⟩
  · refine (hrp.append hrb).trans ?_
    cases mode
    · rw [encs_eq, encs_eq]; simp
    · simp
  · rw [encryptOwn, ep, eb]
    rfl

/-! ## The recursion -/

/-- Every flag is `mode` and every value is as `mode` says. -/
def Done (mode : Bool) (m : Mod) : Prop := m.Every fun e ps bs => e = mode ∧ Own e ps bs

theorem conv_own (mode : Bool) (ps bs : List (String × Val)) (h : Own mode ps bs) :
    ps.map (fun p => (p.1, conv mode p.2)) = ps ∧ bs.map (fun p => (p.1, conv mode p.2)) = bs := by
  constructor
  · conv_rhs => rw [← List.map_id ps]
    refine List.map_congr_left fun x hx => ?_
    cases mode <;> (obtain ⟨t, ht⟩ := h.1 x hx; obtain ⟨k, v⟩ := x; dsimp only at ht; subst ht; rfl)
  · conv_rhs => rw [← List.map_id bs]
    refine List.map_congr_left fun x hx => ?_
    cases mode <;> (have := h.2 x hx; obtain ⟨k, v⟩ := x; cases v <;> first | rfl | exact absurd rfl (this _))

theorem own_conv (mode e : Bool) (ps bs : List (String × Val)) (h : Own e ps bs) :
    Own mode (ps.map fun p => (p.1, conv mode p.2)) (bs.map fun p => (p.1, conv mode p.2)) := by
  have hp : ∀ p ∈ ps, ∃ t, p.2 = .enc t ∨ p.2 = .plain t := by
    cases e
    · exact fun p hp => (h.1 p hp).imp fun t ht => Or.inr ht
    · exact fun p hp => (h.1 p hp).imp fun t ht => Or.inl ht
  cases mode
  · refine ⟨fun p hp' => ?_, fun b hb t => ?_⟩
    · obtain ⟨q, hq, rfl⟩ := List.mem_map.1 hp'
      obtain ⟨t, ht | ht⟩ := hp q hq <;> exact ⟨t, by rw [ht]; rfl⟩
    · obtain ⟨q, hq, rfl⟩ := List.mem_map.1 hb
      obtain ⟨k, v⟩ := q
      cases v <;> simp [conv, Val.toPlain]
  · refine ⟨fun p hp' => ?_, fun b hb t => ?_⟩
    · obtain ⟨q, hq, rfl⟩ := List.mem_map.1 hp'
      obtain ⟨t, ht | ht⟩ := hp q hq <;> exact ⟨t, by rw [ht]; rfl⟩
    · obtain ⟨q, hq, rfl⟩ := List.mem_map.1 hb
      obtain ⟨k, v⟩ := q
      cases v <;> simp [conv, Val.toEnc]

theorem consistent_mk {e : Bool} {ps bs : List (String × Val)} {cs : List (String × Mod)} :
    (Mod.mk e ps bs cs).Consistent ↔ Own e ps bs ∧ ∀ c ∈ cs, c.2.Consistent := by
  rw [Mod.Consistent, Mod.Every, everyChild_iff]; rfl

theorem done_mk {mode e : Bool} {ps bs : List (String × Val)} {cs : List (String × Mod)} :
    Done mode (Mod.mk e ps bs cs) ↔ (e = mode ∧ Own e ps bs) ∧ ∀ c ∈ cs, Done mode c.2 := by
  rw [Done, Mod.Every, everyChild_iff]; rfl

theorem done_mapTree (mode : Bool) : ∀ (n : ℕ) (m : Mod), m.height ≤ n → m.Consistent → Done mode (m.mapTree mode (conv mode))
  | 0, .mk e ps bs cs, h, _ => by rw [Mod.height] at h; omega
  | n + 1, .mk e ps bs cs, h, hc => by
    rw [Mod.height] at h
    rw [consistent_mk] at hc
    rw [Mod.mapTree, done_mk, mapChildren_eq]
    refine ⟨⟨rfl, own_conv mode e ps bs hc.1⟩, fun c hc' => ?_⟩
    obtain ⟨c', h', rfl⟩ := List.mem_map.1 hc'
    exact done_mapTree mode n c'.2 (by have := height_le_children h'; omega) (hc.2 c' h')

theorem height_mapTree (flag : Bool) (f : Val → Val) : ∀ (n : ℕ) (m : Mod), m.height ≤ n → (m.mapTree flag f).height = m.height
  | 0, .mk e ps bs cs, h => by rw [Mod.height] at h; omega
  | n + 1, .mk e ps bs cs, h => by
    rw [Mod.height] at h
    rw [Mod.mapTree, Mod.height, Mod.height]
    congr 1
    suffices ∀ cs : List (String × Mod), heightChildren cs ≤ n → heightChildren (mapChildren flag f cs) = heightChildren cs from this cs (by omega)
    intro cs
    induction cs with
    | nil => intro _; rfl
    | cons c cs ih =>
      obtain ⟨k, m⟩ := c
      intro h
      rw [heightChildren] at h
      rw [mapChildren, heightChildren, heightChildren, ih (by omega), height_mapTree flag f n m (by omega)]

/-- Nothing happens on a tree that is done. -/
theorem applyEncrypt_done (mode : Bool) : ∀ (fuel : ℕ) (m : Mod), m.height + 1 ≤ fuel → Done mode m → applyEncrypt fuel mode m = { val := m }
  | 0, .mk e ps bs cs, h, _ => by omega
  | fuel + 1, .mk e ps bs cs, h, hd => by
    rw [Mod.height] at h
    rw [done_mk] at hd
    obtain ⟨r, hr, er⟩ := loopDict_ok (applyEncrypt fuel mode) id (fun _ => []) cs fun x hx =>
      ⟨[], List.Perm.refl _, applyEncrypt_done mode fuel x.2 (by have := height_le_children hx; omega) (hd.2 x hx)⟩
    obtain rfl : r = [] := List.perm_nil.1 (hr.trans (by simp))
    rw [applyEncrypt, er]
    dsimp only
    obtain ⟨f, rfl⟩ : ∃ f, fuel = f + 1 := ⟨fuel - 1, by omega⟩
    rw [encrypt, if_pos hd.1.1.symm]
    simp

/-- `_apply` on any consistent tree. -/
theorem applyEncrypt_ok (mode : Bool) : ∀ (fuel : ℕ) (m : Mod), m.height + 2 ≤ fuel → m.Consistent →
    ∃ r, r.Perm (if mode then [] else m.secrets) ∧ applyEncrypt fuel mode m = { val := m.mapTree mode (conv mode), revealed := r, raised := false }
  | 0, .mk e ps bs cs, h, _ => by omega
  | fuel + 1, .mk e ps bs cs, h, hc => by
    have hh := h
    rw [Mod.height] at hh
    have hc' := hc
    rw [consistent_mk] at hc
    obtain ⟨r, hr, er⟩ := loopDict_ok (applyEncrypt fuel mode) (fun m => m.mapTree mode (conv mode)) (fun m => if mode then [] else m.secrets) cs fun x hx =>
      applyEncrypt_ok mode fuel x.2 (by have := height_le_children hx; omega) (hc.2 x hx)
    rw [← mapChildren_eq] at er
    obtain ⟨f, rfl⟩ : ∃ f, fuel = f + 1 := ⟨fuel - 1, by omega⟩
    have hdone : ∀ c ∈ mapChildren mode (conv mode) cs, applyEncrypt f mode c.2 = { val := c.2 } := by
      intro c hcm
      rw [mapChildren_eq] at hcm
      obtain ⟨c', h', rfl⟩ := List.mem_map.1 hcm
      refine applyEncrypt_done mode f _ ?_ (done_mapTree mode _ c'.2 le_rfl (hc.2 c' h'))
      rw [height_mapTree mode _ _ c'.2 le_rfl]
      have := height_le_children h'; omega
    have hsec : (r : List Tensor).Perm (if mode then [] else secretsChildren cs) := by
      refine hr.trans ?_
      cases mode
      · rw [secretsChildren_eq]; simp
      · simp
    rw [applyEncrypt, er]
    dsimp only
    rw [encrypt]
    by_cases he : mode = e
    · subst he
      obtain ⟨c1, c2⟩ := conv_own mode ps bs hc.1
      refine ⟨r, ?_, ?_⟩
      · refine hsec.trans ?_
        cases mode
        · have h1 : encs ps = [] := by
            rw [encs, List.filterMap_eq_nil_iff]
            intro x hx; obtain ⟨t, ht⟩ := hc.1.1 x hx; rw [ht]
          have h2 : encs bs = [] := by
            rw [encs, List.filterMap_eq_nil_iff]
            intro x hx; have := hc.1.2 x hx; obtain ⟨k, v⟩ := x; cases v <;> first | rfl | exact absurd rfl (this _)
          simp [Mod.secrets, h1, h2]
        · simp
      · rw [if_pos rfl, Mod.mapTree, c1, c2]
        simp
    · rw [if_neg he]
      have hown : Own (!mode) ps bs := by
        have : (!mode) = e := by cases mode <;> cases e <;> simp_all
        rw [this]; exact hc.1
      obtain ⟨ro, hro, eo⟩ := encryptOwn_ok mode ps bs hown
      obtain ⟨rc, hrc, ec⟩ := loopDict_ok (applyEncrypt f mode) id (fun _ => []) (mapChildren mode (conv mode) cs) fun x hx =>
        ⟨[], List.Perm.refl _, hdone x hx⟩
      obtain rfl : rc = [] := List.perm_nil.1 (hrc.trans (by simp))
      rw [eo]
      dsimp only
      rw [ec]
      refine ⟨r ++ ro, ?_, ?_⟩
      · cases mode
        · simp only [Bool.false_eq_true, if_false] at hsec hro ⊢
          rw [Mod.secrets]
          exact (hsec.append hro).trans List.perm_append_comm
        · simp only [if_true] at hsec hro ⊢
          simpa using ⟨List.perm_nil.1 hsec, List.perm_nil.1 hro⟩
      · rw [Mod.mapTree]
        simp

/-- `encrypt(mode)` on a module whose own flag has the other value. -/
theorem encrypt_ok (mode : Bool) (fuel : ℕ) (m : Mod) (h : m.height + 2 ≤ fuel) (hc : m.Consistent) (hf : m.encrypted = !mode) :
    ∃ r, r.Perm (if mode then [] else m.secrets) ∧ encrypt fuel mode m = { val := m.mapTree mode (conv mode), revealed := r, raised := false } := by
  obtain ⟨e, ps, bs, cs⟩ := m
  obtain rfl : e = !mode := hf
  rw [Mod.height] at h
  rw [consistent_mk] at hc
  obtain ⟨f, rfl⟩ : ∃ f, fuel = f + 1 := ⟨fuel - 1, by omega⟩
  obtain ⟨ro, hro, eo⟩ := encryptOwn_ok mode ps bs hc.1
  obtain ⟨r, hr, er⟩ := loopDict_ok (applyEncrypt f mode) (fun m => m.mapTree mode (conv mode)) (fun m => if mode then [] else m.secrets) cs fun x hx =>
    applyEncrypt_ok mode f x.2 (by have := height_le_children hx; omega) (hc.2 x hx)
  rw [← mapChildren_eq] at er
  have hsec : (r : List Tensor).Perm (if mode then [] else secretsChildren cs) := by
    refine hr.trans ?_
    cases mode
    · rw [secretsChildren_eq]; simp
    · simp
  refine ⟨ro ++ r, ?_, ?_⟩
  · cases mode
    · simp only [Bool.false_eq_true, if_false] at hsec hro ⊢
      rw [Mod.secrets]
      exact hro.append hsec
    · simp only [if_true] at hsec hro ⊢
      simpa using ⟨List.perm_nil.1 hro, List.perm_nil.1 hsec⟩
  · rw [encrypt, if_neg (by cases mode <;> simp), eo]
    dsimp only
    rw [er, Mod.mapTree]
    simp

/-! ## Claims -/

/-- **C46 (encrypt).** For every consistent tree of modules whose root is not yet encrypted, `encrypt()` succeeds, reveals nothing, and the result is the same tree in which every tensor is
encrypted, with the same values, in the root and all descendants. Missing from the full claim: trees whose root is already marked as encrypted, and unencrypted modules with encrypted buffers; both
are refuted below. -/
theorem C46_encrypt_partial (fuel : ℕ) (m : Mod) (h : m.height + 2 ≤ fuel) (hc : m.Consistent) (hf : m.encrypted = false) :
    encrypt fuel true m = { val := m.mapTree true Val.toEnc, revealed := [], raised := false } ∧ (encrypt fuel true m).val.AllEncrypted := by
  obtain ⟨r, hr, e⟩ := encrypt_ok true fuel m h hc hf
  obtain rfl : r = [] := by simpa using hr
  refine ⟨e, ?_⟩
  rw [e]
  have := done_mapTree true _ m le_rfl hc
  rw [Done] at this
  have mono : ∀ (n : ℕ) (m : Mod), m.height ≤ n → (m.Every fun e ps bs => e = true ∧ Own e ps bs) → m.AllEncrypted := by
    intro n
    induction n with
    | zero => intro m hm; obtain ⟨e, ps, bs, cs⟩ := m; rw [Mod.height] at hm; omega
    | succ n ih =>
      intro m hm hd
      obtain ⟨e, ps, bs, cs⟩ := m
      rw [Mod.height] at hm
      rw [Mod.Every, everyChild_iff] at hd
      rw [Mod.AllEncrypted, Mod.Every, everyChild_iff]
      obtain ⟨⟨rfl, ho⟩, hd⟩ := hd
      refine ⟨⟨fun p hp t => ?_, ho.2⟩, fun c hc => ih c.2 (by have := height_le_children hc; omega) (hd c hc)⟩
      obtain ⟨s, hs⟩ := ho.1 p hp
      rw [hs]; exact Val.noConfusion
  exact mono _ _ le_rfl this

/-- **C46 (decrypt).** For every consistent tree whose root is marked as encrypted, `decrypt()` succeeds, the result is the same tree with all tensors decrypted, and what is revealed are exactly the
encrypted tensors of the tree. -/
theorem C46_decrypt_partial (fuel : ℕ) (m : Mod) (h : m.height + 2 ≤ fuel) (hc : m.Consistent) (hf : m.encrypted = true) :
    ∃ r, r.Perm m.secrets ∧ encrypt fuel false m = { val := m.mapTree false Val.toPlain, revealed := r, raised := false } := encrypt_ok false fuel m h hc hf

theorem mapTree_roundtrip : ∀ (n : ℕ) (m : Mod), m.height ≤ n → Done false m → (m.mapTree true Val.toEnc).mapTree false Val.toPlain = m
  | 0, .mk e ps bs cs, h, _ => by rw [Mod.height] at h; omega
  | n + 1, .mk e ps bs cs, h, hd => by
    rw [Mod.height] at h
    rw [done_mk] at hd
    obtain ⟨⟨rfl, ho⟩, hd⟩ := hd
    rw [Mod.mapTree, Mod.mapTree, mapChildren_eq, mapChildren_eq, List.map_map, List.map_map, List.map_map]
    congr 1
    · conv_rhs => rw [← List.map_id ps]
      refine List.map_congr_left fun x hx => ?_
      obtain ⟨t, ht⟩ := ho.1 x hx; obtain ⟨k, v⟩ := x; dsimp only at ht; subst ht; rfl
    · conv_rhs => rw [← List.map_id bs]
      refine List.map_congr_left fun x hx => ?_
      have := ho.2 x hx; obtain ⟨k, v⟩ := x; cases v <;> first | rfl | exact absurd rfl (this _)
    · conv_rhs => rw [← List.map_id cs]
      refine List.map_congr_left fun x hx => ?_
      have := mapTree_roundtrip n x.2 (by have := height_le_children hx; omega) (hd x hx)
      simp only [Function.comp, this, id]

theorem done_consistent (mode : Bool) : ∀ (n : ℕ) (m : Mod), m.height ≤ n → Done mode m → m.Consistent
  | 0, .mk e ps bs cs, h, _ => by rw [Mod.height] at h; omega
  | n + 1, .mk e ps bs cs, h, hd => by
    rw [Mod.height] at h
    rw [done_mk] at hd
    rw [consistent_mk]
    exact ⟨hd.1.2, fun c hc => done_consistent mode n c.2 (by have := height_le_children hc; omega) (hd.2 c hc)⟩

/-- **C46 (round trip).** For every plaintext model: encrypting and decrypting gives the model back. -/
theorem C46_roundtrip (fuel : ℕ) (m : Mod) (h : m.height + 2 ≤ fuel)
    (hp : m.Every fun e ps bs => e = false ∧ (∀ p ∈ ps, ∃ t, p.2 = .plain t) ∧ (∀ b ∈ bs, ∀ t, b.2 ≠ .enc t)) :
    (encrypt fuel false (encrypt fuel true m).val).val = m ∧ (encrypt fuel true m).raised = false ∧ (encrypt fuel false (encrypt fuel true m).val).raised = false := by
  have hd : Done false m := by
    have aux : ∀ (n : ℕ) (m : Mod), m.height ≤ n → (m.Every fun e ps bs => e = false ∧ (∀ p ∈ ps, ∃ t, p.2 = .plain t) ∧ (∀ b ∈ bs, ∀ t, b.2 ≠ .enc t)) → Done false m := by
      intro n
      induction n with
      | zero => intro m hm; obtain ⟨e, ps, bs, cs⟩ := m; rw [Mod.height] at hm; omega
      | succ n ih =>
        intro m hm hd
        obtain ⟨e, ps, bs, cs⟩ := m
        rw [Mod.height] at hm
        rw [Mod.Every, everyChild_iff] at hd
        rw [done_mk]
        obtain ⟨⟨rfl, ho⟩, hd⟩ := hd
        exact ⟨⟨rfl, ho⟩, fun c hc => ih c.2 (by have := height_le_children hc; omega) (hd c hc)⟩
    exact aux _ m le_rfl hp
  have hc := done_consistent false _ m le_rfl hd
  have hf : m.encrypted = false := by
    obtain ⟨e, ps, bs, cs⟩ := m
    rw [done_mk] at hd; exact hd.1.1
  obtain ⟨e, -⟩ := C46_encrypt_partial fuel m h hc hf
  have hd2 := done_mapTree true _ m le_rfl hc
  obtain ⟨r, -, e2⟩ := C46_decrypt_partial fuel (m.mapTree true Val.toEnc) (by rw [height_mapTree _ _ _ m le_rfl]; exact h) (done_consistent true _ _ le_rfl hd2)
    (by obtain ⟨e, ps, bs, cs⟩ := m; rfl)
  rw [e]
  dsimp only
  rw [e2]
  exact ⟨mapTree_roundtrip _ m le_rfl hd, rfl, rfl⟩

/-- A module whose own flag says it is encrypted is left alone, whatever its descendants look like. -/
theorem C46_encrypt_flagged (fuel : ℕ) (mode : Bool) (m : Mod) (hf : m.encrypted = mode) : encrypt (fuel + 1) mode m = { val := m } := by
  obtain ⟨e, ps, bs, cs⟩ := m
  obtain rfl : e = mode := hf
  rw [encrypt, if_pos rfl]

/-- **C46 (exactly when).** On a consistent tree, `encrypt()` leaves everything encrypted exactly if the root was not marked as encrypted or everything was encrypted already. -/
theorem C46_encrypt_iff (fuel : ℕ) (m : Mod) (h : m.height + 2 ≤ fuel) (hc : m.Consistent) :
    (encrypt fuel true m).val.AllEncrypted ↔ m.encrypted = false ∨ m.AllEncrypted := by
  rcases hb : m.encrypted with _ | _
  · exact ⟨fun _ => Or.inl rfl, fun _ => (C46_encrypt_partial fuel m h hc hb).2⟩
  · obtain ⟨f, rfl⟩ : ∃ f, fuel = f + 1 := ⟨fuel - 1, by omega⟩
    rw [C46_encrypt_flagged f true m hb]
    simp

/-- An example: a model with a parameter, a buffer of a shape, and a child with a parameter and a buffer. -/
def sample : Mod :=
  .mk false [("weight", .plain ⟨[2], [3, 5]⟩)] [("shape", .other 4)] [("bn", .mk false [("weight", .plain ⟨[1], [7]⟩)] [("running_mean", .plain ⟨[1], [11]⟩)] [])]

theorem sample_consistent : sample.Consistent := by
  simp [sample, Mod.Consistent, Mod.Every, EveryChild]

/-- The hypotheses are met by the example, and nothing stays in plaintext. -/
example : (encrypt 4 true sample).val =
    .mk true [("weight", .enc ⟨[2], [3, 5]⟩)] [("shape", .other 4)] [("bn", .mk true [("weight", .enc ⟨[1], [7]⟩)] [("running_mean", .enc ⟨[1], [11]⟩)] [])] := by
  rw [(C46_encrypt_partial 4 sample (by decide) sample_consistent rfl).1]
  rfl

/-- **C46 is false for a child added after encryption**: a model is encrypted, then a plaintext module is added to it; `encrypt()` succeeds and leaves its parameter in plaintext. -/
theorem C46_encrypt_added_child_wrong : ∃ (fuel : ℕ) (m : Mod) (name : String) (child : Mod),
    m.Consistent ∧ child.Consistent ∧ (Mod.height m + 2 ≤ fuel) ∧
    ∃ ps bs cs, (encrypt fuel true m).val = .mk true ps bs cs ∧
      (encrypt fuel true (.mk true ps bs (cs ++ [(name, child)]))).raised = false ∧ ¬ (encrypt fuel true (.mk true ps bs (cs ++ [(name, child)]))).val.AllEncrypted := by
  refine ⟨4, sample, "fc", .mk false [("weight", .plain ⟨[1], [13]⟩)] [] [], sample_consistent, by simp [Mod.Consistent, Mod.Every, EveryChild], by decide, _, _, _,
    by rw [(C46_encrypt_partial 4 sample (by decide) sample_consistent rfl).1]; rfl, ?_, ?_⟩
  · rw [C46_encrypt_flagged 3 true _ rfl]
  · rw [C46_encrypt_flagged 3 true _ rfl]
    simp [Mod.AllEncrypted, Mod.Every, EveryChild, mapChildren]

/-- **C46 is false for encrypted buffers**: `encrypt()` on a model that has an encrypted buffer reveals it to all parties and leaves it in plaintext. -/
theorem C46_encrypt_reveals_wrong : ∃ (m : Mod) (t : Tensor), m.HasBuffer ["running_mean"] (.enc t) ∧
    (encrypt 3 true m).raised = false ∧ t ∈ (encrypt 3 true m).revealed ∧ (encrypt 3 true m).val.HasBuffer ["running_mean"] (.plain t) := by
  refine ⟨.mk false [] [("running_mean", .enc ⟨[1], [11]⟩)] [], ⟨[1], [11]⟩, .own (by simp), rfl, ?_, ?_⟩
  · show _ ∈ [_]; simp
  · exact .own (List.mem_singleton.2 rfl)

end CrypTen.Nn
