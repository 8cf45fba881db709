import Verif.Model.SharedCache
import Verif.Props.C45

/-!
# C68 - A cache used by several threads and processes at the same time
-/

namespace Backpak.C68

open Backed SharedCache
open C45 (place placed place_inj)

variable {κ π : Type} [DecidableEq κ] [DecidableEq π]

/-- Objects are asked for by their names, and named after what is in them. -/
def Named (what : Shelf → ObjectId → Bytes) : Want → Prop
  | .read _ n => ∃ k id, n = objectName k id
  | .write n x => ∃ k id, n = objectName k id ∧ x = what k id
  | .remove n => ∃ k id, n = objectName k id

/-- A name and what belongs there. -/
def Right (what : Shelf → ObjectId → Bytes) (n x : Bytes) : Prop := ∃ k id, n = objectName k id ∧ x = what k id

/-! ## What is read is what belongs there -/

/-- What a thread has in hand is what belongs there. -/
def Holding (what : Shelf → ObjectId → Bytes) : At → Prop
  | .idle | .failed _ => True
  | .opening n | .missed n | .fetching n | .evicting n | .evicted n | .removing n => ∃ k id, n = objectName k id
  | .hit n x | .fetched n x | .writing n x | .written n x => Right what n x
  | .kept n x r => Right what n x ∧ ∀ q, r = some q → Right what q.1 q.2
  | .pruning r | .done r => ∀ q, r = some q → Right what q.1 q.2
  | .deleting _ rest _ r => (∀ a ∈ rest, (∃ n, a = .unkeep n) ∨ ∃ o, a = .unrowBefore o) ∧
      ∀ q, r = some q → Right what q.1 q.2

structure Inv (what : Shelf → ObjectId → Bytes) (m : Many κ π) : Prop where
  store : C45.Holds what m.backed.store
  files : ∀ k id x, m.backed.cache.files (objectName k id) = some x → x = what k id
  sizes : ∀ k id t n, m.backed.cache.rows (objectName k id) = some (t, n) → n = (what k id).length
  hold : ∀ c, Holding what (m.now c)

section

variable {what : Shelf → ObjectId → Bytes} {proc : κ → π} {may : (Bytes → Option Bytes) → Want → Prop} {m m' : Many κ π}

theorem name_inj {k k' : Shelf} {id id' : ObjectId} (h : objectName k id = objectName k' id') : k = k' ∧ id = id' := by
  have h1 := placed k id
  have h2 := placed k' id'
  rw [h, h2] at h1
  exact place_inj (Except.ok.inj h1).symm

omit [DecidableEq π] in
theorem holding_update {a : At} {c : κ} (h : ∀ d, Holding what (m.now d)) (ha : Holding what a) :
    ∀ d, Holding what (Function.update m.now c a d) := by
  intro d
  rw [Function.update_apply]
  split
  · exact ha
  · exact h d

theorem prune_kinds (limit : Nat) (rows : List Row) :
    ∀ a ∈ (pruneActs limit rows).1, (∃ n, a = .unkeep n) ∨ ∃ o, a = .unrowBefore o := by
  intro a ha
  unfold pruneActs at ha
  split at ha
  · cases ha
  · rename_i last rest _
    cases last with
    | none =>
      obtain ⟨r, _, rfl⟩ := List.mem_map.mp ha
      exact .inl ⟨_, rfl⟩
    | some o =>
      rcases List.mem_append.mp ha with ha | ha
      · obtain ⟨r, _, rfl⟩ := List.mem_map.mp ha
        exact .inl ⟨_, rfl⟩
      · exact .inr ⟨_, List.mem_singleton.mp ha⟩

theorem inv_step (hmay : ∀ s w, may s w → Named what w) (h : Inv what m) (hs : Step proc may m m') : Inv what m' := by
  have same0 : ∀ (c : κ) (a : At), Holding what a → Inv what (m.go c a [] false) :=
    fun c a ha => ⟨h.store, h.files, h.sizes, holding_update h.hold ha⟩
  have same : ∀ (c : κ) (a : At) (b : Bool) (l : π → Option κ), Holding what a →
      Inv what { m.go c a [] b with lock := l } :=
    fun c a b l ha => ⟨h.store, h.files, h.sizes, holding_update h.hold ha⟩
  have keep : ∀ (c : κ) (a : At) (n x : Bytes), Right what n x → Holding what a →
      Inv what (m.go c a [.keep n x] false) := by
    rintro c a n x ⟨k, id, rfl, rfl⟩ ha
    refine ⟨h.store, ?_, h.sizes, holding_update h.hold ha⟩
    intro k' id' y hy
    simp only [Many.go, acts, List.foldl, act, setAt] at hy
    split at hy
    · rename_i he
      obtain ⟨rfl, rfl⟩ := name_inj he
      cases hy; rfl
    · exact h.files k' id' y hy
  have row : ∀ (c : κ) (a : At) (n x : Bytes) (t : Int), Right what n x → Holding what a →
      Inv what (m.go c a [.row n t x.length] true) := by
    rintro c a n x t ⟨k, id, rfl, rfl⟩ ha
    refine ⟨h.store, h.files, ?_, holding_update h.hold ha⟩
    intro k' id' t' n' hy
    simp only [Many.go, acts, List.foldl, act, setAt] at hy
    split at hy
    · rename_i he
      obtain ⟨rfl, rfl⟩ := name_inj he
      cases hy; rfl
    · exact h.sizes k' id' t' n' hy
  have unkeep : ∀ (c : κ) (a : At) (n : Bytes), Holding what a → Inv what (m.go c a [.unkeep n] false) := by
    intro c a n ha
    refine ⟨h.store, ?_, h.sizes, holding_update h.hold ha⟩
    intro k' id' y hy
    simp only [Many.go, acts, List.foldl, act, setAt] at hy
    split at hy
    · cases hy
    · exact h.files k' id' y hy
  have unrow : ∀ (c : κ) (a : At) (n : Bytes) (b : Bool), Holding what a → Inv what (m.go c a [.unrow n] b) := by
    intro c a n b ha
    refine ⟨h.store, h.files, ?_, holding_update h.hold ha⟩
    intro k' id' t' n' hy
    simp only [Many.go, acts, List.foldl, act, setAt] at hy
    split at hy
    · cases hy
    · exact h.sizes k' id' t' n' hy
  have at_ : ∀ {c : κ} {a : At}, m.now c = a → Holding what a := fun {c a} e => e ▸ h.hold c
  cases hs with
  | ask c w h1 h2 =>
    refine same0 c _ ?_
    have := hmay _ w h2
    cases w with
    | read always n => cases always <;> exact this
    | write n x => exact this
    | remove n => exact this
  | openHit c n x h1 h2 =>
    obtain ⟨k, id, rfl⟩ := at_ h1
    refine same0 c _ ?_; exact ⟨k, id, rfl, h.files k id x h2⟩
  | openMiss c n h1 h2 => have := at_ h1; exact same0 c _ this
  | use c n x t h1 h2 => exact row c _ n x t (at_ h1) (fun q hq => by cases hq; exact at_ h1)
  | drop c n h1 h2 => have := at_ h1; refine unrow c _ n _ ?_; exact this
  | fetch c n p x h1 h2 h3 =>
    obtain ⟨k, id, rfl⟩ := at_ h1
    rw [placed] at h2
    cases h2
    refine same0 c _ ?_; exact ⟨k, id, rfl, h.store k id x h3⟩
  | fetchNot c n p h1 h2 h3 => refine same0 c _ ?_; exact trivial
  | fetchBad c n e h1 h2 => refine same0 c _ ?_; exact trivial
  | put c n p x h1 h2 =>
    obtain ⟨k, id, rfl, rfl⟩ := at_ h1
    rw [placed] at h2
    cases h2
    refine ⟨?_, h.files, h.sizes, holding_update h.hold ⟨k, id, rfl, rfl⟩⟩
    intro k' id' y hy
    simp only [Many.go, acts, List.foldl, act, setAt] at hy
    split at hy
    · rename_i he
      obtain ⟨rfl, rfl⟩ := place_inj he
      cases hy; rfl
    · exact h.store k' id' y hy
  | putBad c n x e h1 h2 => refine same0 c _ ?_; exact trivial
  | keepRead c n x h1 => exact keep c _ n x (at_ h1) ⟨at_ h1, fun q hq => by cases hq; exact at_ h1⟩
  | keepWrite c n x h1 => exact keep c _ n x (at_ h1) ⟨at_ h1, fun q hq => by cases hq⟩
  | row c n x r t h1 h2 => exact row c _ n x t (at_ h1).1 (at_ h1).2
  | scan c r l h1 h2 h3 => refine same c _ _ _ ?_; exact ⟨prune_kinds _ _, at_ h1⟩
  | unkeep c v n rest e r h1 =>
    have := at_ h1
    exact unkeep c _ n ⟨fun a ha => this.1 a (List.mem_cons_of_mem _ ha), this.2⟩
  | commit c v o rest e r h1 h2 =>
    have := at_ h1
    refine ⟨h.store, h.files, ?_, holding_update h.hold ⟨fun a ha => this.1 a (List.mem_cons_of_mem _ ha), this.2⟩⟩
    intro k id t n hy
    simp only [Many.go, acts, List.foldl, act] at hy
    split at hy
    · cases hy
    · rename_i t' n' he
      split at hy
      · cases hy
      · cases hy
        exact h.sizes k id t n he
  | busy c v o rest e r h1 h2 => refine same c _ _ _ ?_; exact trivial
  | pruned c v r h1 => refine same c _ _ _ ?_; exact (at_ h1).2
  | prunedBad c v e r h1 => refine same c _ _ _ ?_; exact trivial
  | evict c n h1 => have := at_ h1; refine unkeep c _ n ?_; exact this
  | unrow c n h1 h2 => have := at_ h1; refine unrow c _ n _ ?_; exact this
  | take c n p x h1 h2 h3 =>
    refine ⟨?_, h.files, h.sizes, holding_update h.hold (fun q hq => by cases hq)⟩
    intro k' id' y hy
    simp only [Many.go, acts, List.foldl, act, setAt] at hy
    split at hy
    · cases hy
    · exact h.store k' id' y hy
  | takeNot c n p h1 h2 h3 => refine same0 c _ ?_; exact trivial
  | takeBad c n e h1 h2 => refine same0 c _ ?_; exact trivial

theorem inv {store : Bytes → Option Bytes} {limit : Nat} (hmay : ∀ s w, may s w → Named what w)
    (hst : C45.Holds what store) (h : Reachable proc may store limit m) : Inv what m := by
  induction h with
  | refl => exact ⟨hst, fun _ _ _ h => (by cases h), fun _ _ _ _ h => (by cases h), fun _ => trivial⟩
  | tail _ hs ih => exact inv_step hmay ih hs

/-- However the steps of any number of threads and processes mix, and whichever of them stop for good: what a read
gives is what belongs under the name that was asked for. -/
theorem true_reads {store : Bytes → Option Bytes} {limit : Nat} (hmay : ∀ s w, may s w → Named what w)
    (hst : C45.Holds what store) (h : Reachable proc may store limit m) {c : κ} {k : Shelf} {id : ObjectId} {x : Bytes}
    (hc : m.now c = .done (some (objectName k id, x))) : x = what k id := by
  have := (inv hmay hst h).hold c
  rw [hc] at this
  obtain ⟨k', id', h1, h2⟩ := this _ rfl
  obtain ⟨rfl, rfl⟩ := name_inj h1
  exact h2

/-! ## Nothing in the cache goes uncounted -/

/-- Reads of what the backend holds, and writes. -/
def Plain (what : Shelf → ObjectId → Bytes) (store : Bytes → Option Bytes) : Want → Prop
  | .read _ n => ∃ k id, n = objectName k id ∧ store (place k id) ≠ none
  | .write n x => Right what n x
  | .remove _ => False

theorem Plain.named {store : Bytes → Option Bytes} {w : Want} (h : Plain what store w) : Named what w := by
  cases w with
  | read always n => obtain ⟨k, id, h1, _⟩ := h; exact ⟨k, id, h1⟩
  | write n x => exact h
  | remove n => cases h

/-- What a thread wants of the backend is there, and no thread removes. -/
def Wants (what : Shelf → ObjectId → Bytes) (store : Bytes → Option Bytes) : At → Prop
  | .opening n | .missed n | .fetching n => ∃ k id, n = objectName k id ∧ store (place k id) ≠ none
  | .evicting _ | .evicted _ | .removing _ => False
  | .writing n x => Right what n x
  | _ => True

/-- A thread that will note object `n` in the table. -/
def Going (n : Bytes) : At → Prop
  | .missed n' | .fetching n' | .fetched n' _ | .kept n' _ _ => n' = n
  | _ => False

/-- The rest of a prune. -/
def Shape (rest : List Act) : Prop :=
  ∃ ns : List Bytes, rest = ns.map .unkeep ∨ ∃ o, rest = ns.map .unkeep ++ [.unrowBefore o]

/-- As long as nobody has written to the table, the rows that a prune will delete are of files that it will delete or
that are gone, or somebody will note them again. -/
structure Prunes (m : Many κ π) (v : Nat) (rest : List Act) : Prop where
  ver : v ≤ m.ver
  shape : Shape rest
  rows : m.ver = v → ∀ o, .unrowBefore o ∈ rest → ∀ n t k, m.backed.cache.rows n = some (t, k) → t < o →
    .unkeep n ∈ rest ∨ m.backed.cache.files n = none ∨ ∃ d, Going n (m.now d)

structure Tracked (what : Shelf → ObjectId → Bytes) (m : Many κ π) : Prop where
  wants : ∀ c, Wants what m.backed.store (m.now c)
  track : ∀ n, m.backed.cache.files n ≠ none → m.backed.cache.rows n ≠ none ∨ ∃ c, Going n (m.now c)
  prunes : ∀ c v rest e r, m.now c = .deleting v rest e r → Prunes m v rest

omit [DecidableEq π] in
theorem Tracked.step (h : Tracked what m) {c : κ} {a : At}
    (hst : ∀ p, m.backed.store p ≠ none → m'.backed.store p ≠ none)
    (hnow : m'.now = Function.update m.now c a) (hver : m.ver ≤ m'.ver) (hw : Wants what m'.backed.store a)
    (hgo : ∀ n, Going n (m.now c) → Going n a ∨ m'.backed.cache.rows n ≠ none ∧ m'.ver ≠ m.ver)
    (hfiles : ∀ n, m'.backed.cache.files n ≠ none → m.backed.cache.files n ≠ none ∨ Going n a)
    (hsame : m'.ver = m.ver → m'.backed.cache.rows = m.backed.cache.rows)
    (hlost : ∀ n, m.backed.cache.rows n ≠ none → m'.backed.cache.rows n = none →
      m'.backed.cache.files n = none ∨ ∃ d, Going n (m'.now d))
    (hdel : ∀ v rest e r, a = .deleting v rest e r → Prunes m' v rest) : Tracked what m' := by
  have going : ∀ n, (∃ d, Going n (m.now d)) → (∃ d, Going n (m'.now d)) ∨ m'.backed.cache.rows n ≠ none ∧ m'.ver ≠ m.ver := by
    rintro n ⟨d, hd⟩
    by_cases hdc : d = c
    · subst hdc
      rcases hgo n hd with h1 | h1
      · exact .inl ⟨d, by rw [hnow, Function.update_self]; exact h1⟩
      · exact .inr h1
    · exact .inl ⟨d, by rw [hnow, Function.update_of_ne hdc]; exact hd⟩
  have going' : ∀ n, Going n a → ∃ d, Going n (m'.now d) := fun n hn => ⟨c, by rw [hnow, Function.update_self]; exact hn⟩
  refine ⟨?_, ?_, ?_⟩
  · intro d
    rw [hnow, Function.update_apply]
    split
    · exact hw
    · have := h.wants d
      revert this
      cases m.now d <;> simp only [Wants] <;> try exact id
      all_goals
        rintro ⟨k, id, h1, h2⟩
        exact ⟨k, id, h1, hst _ h2⟩
  · intro n hn
    rcases hfiles n hn with h1 | h1
    · rcases h.track n h1 with h2 | h2
      · by_cases h3 : m'.backed.cache.rows n = none
        · rcases hlost n h2 h3 with h4 | h4
          · exact absurd h4 hn
          · exact .inr h4
        · exact .inl h3
      · rcases going n h2 with h3 | h3
        · exact .inr h3
        · exact .inl h3.1
    · exact .inr (going' n h1)
  · intro d v rest e r hd
    rw [hnow, Function.update_apply] at hd
    split at hd
    · exact hdel v rest e r hd
    · have hp := h.prunes d v rest e r hd
      refine ⟨hp.ver.trans hver, hp.shape, ?_⟩
      intro hv o ho n t k hr ht
      have hv' : m.ver = v := by have := hp.ver; omega
      have he : m'.ver = m.ver := hv.trans hv'.symm
      rw [hsame he] at hr
      rcases hp.rows hv' o ho n t k hr ht with h1 | h1 | h1
      · exact .inl h1
      · by_cases h2 : m'.backed.cache.files n = none
        · exact .inr (.inl h2)
        · rcases hfiles n h2 with h3 | h3
          · exact absurd h1 h3
          · exact .inr (.inr (going' n h3))
      · rcases going n h1 with h2 | h2
        · exact .inr (.inr h2)
        · exact absurd he h2.2

theorem scan_prunes {c : κ} {l : List Row} {a : At} (hl : Latest m.backed.cache l) (L : π → Option κ) :
    Prunes { m.go c a [] false with lock := L } m.ver (pruneActs m.backed.cache.limit l).1 := by
  refine ⟨le_refl _, ?_, ?_⟩
  · unfold pruneActs
    split
    · exact ⟨[], .inl rfl⟩
    · rename_i last rest _
      cases last with
      | none => exact ⟨rest.map Row.name, .inl (by simp)⟩
      | some o => exact ⟨rest.map Row.name, .inr ⟨o, by simp⟩⟩
  · intro _ o ho n t k hr ht
    refine .inl ?_
    have hmem : (⟨n, t, k⟩ : Row) ∈ l := (hl.rows ⟨n, t, k⟩).mpr hr
    unfold pruneActs at ho ⊢
    split at ho
    · cases ho
    · rename_i last rest hs
      cases last with
      | none => simp at ho
      | some o' =>
        dsimp only at ho ⊢
        have : o = o' := by simpa using ho
        subst this
        refine List.mem_append_left _ (List.mem_map.mpr ⟨⟨n, t, k⟩, ?_, rfl⟩)
        obtain ⟨kept, h1, _, h3⟩ := C46.scan_some hs
        rw [h1] at hmem
        rcases List.mem_append.mp hmem with h4 | h4
        · exfalso
          rcases h3 with ⟨_, h5⟩ | ⟨kept', r, rfl, h5, _⟩
          · cases h5
          · cases h5
            have ho := hl.order
            rw [h1, List.append_assoc] at ho
            rcases List.mem_append.mp h4 with h6 | h6
            · have := (List.pairwise_append.mp ho).2.2 _ h6 r (by simp)
              simp only at this
              omega
            · rw [List.mem_singleton] at h6
              subst h6
              simp at ht
        · exact h4

theorem tracked_step (hmay : ∀ s w, may s w → Plain what s w) (h : Tracked what m) (hs : Step proc may m m') :
    Tracked what m' := by
  have at_ : ∀ {c : κ} {a : At}, m.now c = a → Wants what m.backed.store a := fun {c a} e => e ▸ h.wants c
  have quiet : ∀ (c : κ) (a : At) (L : π → Option κ), Wants what m.backed.store a →
      (∀ n, Going n (m.now c) → Going n a) →
      (∀ v rest e r, a = .deleting v rest e r → Prunes { m.go c a [] false with lock := L } v rest) →
      Tracked what { m.go c a [] false with lock := L } := by
    intro c a L h1 h2 h3
    exact h.step (c := c) (a := a) (fun p hp => hp) rfl (le_refl _) h1 (fun n hn => .inl (h2 n hn))
      (fun n hn => .inl hn) (fun _ => rfl) (fun n h4 h5 => absurd h5 h4) h3
  have quiet0 : ∀ (c : κ) (a b : At), m.now c = a → Wants what m.backed.store b →
      (∀ n, Going n a → Going n b) → (∀ v rest e r, b ≠ .deleting v rest e r) →
      Tracked what (m.go c b [] false) := by
    intro c a b h0 h1 h2 h3
    exact quiet c b m.lock h1 (fun n hn => h2 n (h0 ▸ hn)) (fun v rest e r he => absurd he (h3 v rest e r))
  have keep : ∀ (c : κ) (n x : Bytes) (a : At) (r : Option (Bytes × Bytes)), m.now c = a →
      (∀ n', Going n' a → n' = n) → Tracked what (m.go c (.kept n x r) [.keep n x] false) := by
    intro c n x a r h0 h1
    refine h.step (c := c) (a := .kept n x r) (fun p hp => hp) rfl (le_refl _) trivial
      (fun n' hn => .inl (h1 n' (h0 ▸ hn)).symm) ?_ (fun _ => rfl) (fun n h4 h5 => absurd h5 h4)
      (fun v rest e r he => by cases he)
    intro n' hn
    simp only [Many.go, acts, List.foldl, act, setAt] at hn
    split at hn
    · rename_i he; exact .inr he.symm
    · exact .inl hn
  have row : ∀ (c : κ) (n x : Bytes) (t : Int) (a b : At), m.now c = a → (∀ n', Going n' a → n' = n) →
      Wants what m.backed.store b → (∀ v rest e r, b ≠ .deleting v rest e r) →
      Tracked what (m.go c b [.row n t x.length] true) := by
    intro c n x t a b h0 h1 h2 h3
    refine h.step (c := c) (a := b) (fun p hp => hp) rfl (Nat.le_succ _) h2 ?_
      (fun n hn => .inl hn) (fun he => absurd he (Nat.succ_ne_self _)) ?_
      (fun v rest e r he => absurd he (h3 v rest e r))
    · intro n' hn
      refine .inr ⟨?_, Nat.succ_ne_self _⟩
      rw [h1 n' (h0 ▸ hn)]
      simp [Many.go, acts, act, setAt]
    · intro n' h4 h5
      exfalso
      simp only [Many.go, acts, List.foldl, act, setAt] at h5
      split at h5
      · cases h5
      · exact h4 h5
  cases hs with
  | ask c w h1 h2 =>
    have := hmay _ w h2
    have hg : ∀ n, ¬ Going n (m.now c) := by
      intro n
      revert h1
      cases m.now c <;> simp [At.free, Going]
    cases w with
    | read always n => cases always <;> exact quiet0 c _ _ rfl this (fun n hn => absurd hn (hg n)) (by simp [start])
    | write n x => exact quiet0 c _ _ rfl this (fun n hn => absurd hn (hg n)) (by simp [start])
    | remove n => cases this
  | openHit c n x h1 h2 => exact quiet0 c _ _ h1 trivial (by simp [Going]) (by simp)
  | openMiss c n h1 h2 =>
    have := at_ h1
    exact quiet0 c _ (.missed n) h1 this (by simp [Going]) (by simp)
  | use c n x t h1 h2 => exact row c n x t _ _ h1 (by simp [Going]) trivial (by simp)
  | drop c n h1 h2 =>
    have hw := at_ h1
    have hg : Going n (At.fetching n) := rfl
    refine h.step (c := c) (a := .fetching n) (fun p hp => hp) rfl ?_ hw ?_ (fun n hn => .inl hn) ?_ ?_
      (fun v rest e r he => by cases he)
    · simp only [Many.go]; split <;> omega
    · intro n' hn
      rw [h1] at hn
      exact .inl hn
    · intro hv
      funext n'
      simp only [Many.go, acts, List.foldl, act, setAt]
      split
      · rename_i he
        subst he
        cases hr : m.backed.cache.rows n' with
        | none => rfl
        | some q => simp [Many.go, hr] at hv
      · rfl
    · intro n' h4 h5
      simp only [Many.go, acts, List.foldl, act, setAt] at h5
      split at h5
      · rename_i he
        subst he
        exact .inr ⟨c, by simp [Many.go, Going]⟩
      · exact absurd h5 h4
  | fetch c n p x h1 h2 h3 => exact quiet0 c _ _ h1 trivial (by simp [Going]) (by simp)
  | fetchNot c n p h1 h2 h3 =>
    obtain ⟨k, id, rfl, h4⟩ := at_ h1
    rw [placed] at h2
    cases h2
    exact absurd h3 h4
  | fetchBad c n e h1 h2 =>
    obtain ⟨k, id, rfl, h4⟩ := at_ h1
    rw [placed] at h2
    cases h2
  | put c n p x h1 h2 =>
    refine h.step (c := c) (a := .written n x) ?_ rfl (le_refl _) trivial (fun n hn => by rw [h1] at hn; cases hn)
      (fun n hn => .inl hn) (fun _ => rfl) (fun n h4 h5 => absurd h5 h4) (fun v rest e r he => by cases he)
    intro q hq
    simp only [Many.go, acts, List.foldl, act, setAt]
    split
    · simp
    · exact hq
  | putBad c n x e h1 h2 => exact quiet0 c _ _ h1 trivial (by simp [Going]) (by simp)
  | keepRead c n x h1 => exact keep c n x _ _ h1 (fun n' hn => hn.symm)
  | keepWrite c n x h1 => exact keep c n x _ _ h1 (by simp [Going])
  | row c n x r t h1 h2 => exact row c n x t _ _ h1 (fun n' hn => hn.symm) trivial (by simp)
  | scan c r l h1 h2 h3 =>
    refine quiet c _ _ trivial (fun n hn => by rw [h1] at hn; cases hn) ?_
    intro v rest e r he
    cases he
    exact scan_prunes h3 _
  | unkeep c v n rest e r h1 =>
    have hp := h.prunes c _ _ _ _ h1
    refine h.step (c := c) (a := .deleting v rest e r) (fun p hp => hp) rfl (le_refl _) trivial
      (fun n hn => by rw [h1] at hn; cases hn) ?_ (fun _ => rfl) (fun n h4 h5 => absurd h5 h4) ?_
    · intro n' hn
      simp only [Many.go, acts, List.foldl, act, setAt] at hn
      split at hn
      · exact absurd rfl hn
      · exact .inl hn
    · intro v' rest' e' r' he
      cases he
      refine ⟨hp.ver, ?_, ?_⟩
      · obtain ⟨ns, h2 | ⟨o, h2⟩⟩ := hp.shape
        · cases ns with
          | nil => cases h2
          | cons n' ns => exact ⟨ns, .inl (by cases h2; rfl)⟩
        · cases ns with
          | nil => cases h2
          | cons n' ns => exact ⟨ns, .inr ⟨o, by cases h2; rfl⟩⟩
      · intro hv o ho n' t k hr ht
        have hf : ∀ n', m.backed.cache.files n' = none → (m.go c (.deleting v rest e r) [.unkeep n] false).backed.cache.files n' = none := by
          intro n' hn'
          simp only [Many.go, acts, List.foldl, act, setAt]
          split
          · rfl
          · exact hn'
        rcases hp.rows hv o (List.mem_cons_of_mem _ ho) n' t k hr ht with h2 | h2 | ⟨d, h2⟩
        · rcases List.mem_cons.mp h2 with h3 | h3
          · cases h3
            refine .inr (.inl ?_)
            simp [Many.go, acts, act, setAt]
          · exact .inl h3
        · exact .inr (.inl (hf n' h2))
        · refine .inr (.inr ⟨d, ?_⟩)
          have hdc : d ≠ c := by rintro rfl; rw [h1] at h2; cases h2
          show Going n' (Function.update m.now c _ d)
          rw [Function.update_of_ne hdc]
          exact h2
  | commit c v o rest e r h1 h2 =>
    have hp := h.prunes c _ _ _ _ h1
    have hrest : rest = [] := by
      obtain ⟨ns, h3 | ⟨o', h3⟩⟩ := hp.shape
      · cases ns with
        | nil => cases h3
        | cons n' ns => cases h3
      · cases ns with
        | nil => cases h3; rfl
        | cons n' ns => cases h3
    subst hrest
    refine h.step (c := c) (a := .deleting (v + 1) [] e r) (fun p hp => hp) rfl (Nat.le_succ _) trivial
      (fun n hn => by rw [h1] at hn; cases hn) (fun n hn => .inl hn) (fun he => absurd he (Nat.succ_ne_self _)) ?_ ?_
    · intro n h4 h5
      simp only [Many.go, acts, List.foldl, act] at h5
      cases hr : m.backed.cache.rows n with
      | none => exact absurd hr h4
      | some q =>
        obtain ⟨t, k⟩ := q
        simp only [hr] at h5
        split at h5
        · rename_i ht
          rcases hp.rows h2 o List.mem_cons_self n t k hr ht with h6 | h6 | ⟨d, h6⟩
          · rcases List.mem_cons.mp h6 with h7 | h7
            · cases h7
            · cases h7
          · exact .inl h6
          · refine .inr ⟨d, ?_⟩
            have hdc : d ≠ c := by rintro rfl; rw [h1] at h6; cases h6
            show Going n (Function.update m.now c _ d)
            rw [Function.update_of_ne hdc]
            exact h6
        · cases h5
    · intro v' rest' e' r' he
      cases he
      exact ⟨by simp [Many.go, h2], ⟨[], .inl rfl⟩, fun _ o ho => by cases ho⟩
  | busy c v o rest e r h1 h2 => exact quiet c _ _ trivial (fun n hn => by rw [h1] at hn; cases hn) (by simp)
  | pruned c v r h1 => exact quiet c _ _ trivial (fun n hn => by rw [h1] at hn; cases hn) (by simp)
  | prunedBad c v e r h1 => exact quiet c _ _ trivial (fun n hn => by rw [h1] at hn; cases hn) (by simp)
  | evict c n h1 => cases at_ h1
  | unrow c n h1 h2 => cases at_ h1
  | take c n p x h1 h2 h3 => cases at_ h1
  | takeNot c n p h1 h2 h3 => cases at_ h1
  | takeBad c n e h1 h2 => cases at_ h1

theorem tracked_inv {store : Bytes → Option Bytes} {limit : Nat} (hmay : ∀ s w, may s w → Plain what s w)
    (h : Reachable proc may store limit m) : Tracked what m := by
  induction h with
  | refl => exact ⟨fun _ => trivial, fun n hn => absurd rfl hn, fun _ _ _ _ _ h => (by cases h)⟩
  | tail _ hs ih => exact tracked_step hmay ih hs

/-- If nothing is removed, and only what the backend holds is read: whenever nobody is in the midst of a request,
every file in the cache is in the table, with its size; so that a prune finds it. -/
theorem accounted_partial {store : Bytes → Option Bytes} {limit : Nat} (hst : C45.Holds what store)
    (hmay : ∀ s w, may s w → Plain what s w) (h : Reachable proc may store limit m)
    (hfree : ∀ c, (m.now c).free = true) {k : Shelf} {id : ObjectId} {x : Bytes}
    (hx : m.backed.cache.files (objectName k id) = some x) :
    ∃ t, m.backed.cache.rows (objectName k id) = some (t, x.length) := by
  have hi := inv (fun s w hw => (hmay s w hw).named) hst h
  rcases (tracked_inv hmay h).track (objectName k id) (by rw [hx]; simp) with h1 | ⟨c, h1⟩
  · obtain ⟨⟨t, n⟩, h2⟩ := Option.ne_none_iff_exists'.mp h1
    refine ⟨t, ?_⟩
    rw [h2, hi.sizes k id t n h2, hi.files k id x hx]
  · have := hfree c
    revert this h1
    cases m.now c <;> simp [Going, At.free]

/-! ## Requests succeed, of one process -/

structure Calm (what : Shelf → ObjectId → Bytes) (m : Many κ π) (proc : κ → π) : Prop where
  limit : m.backed.cache.limit ≠ 0
  lock : ∀ c v rest e r, m.now c = .deleting v rest e r → e = none ∧ m.lock (proc c) = some c ∧ m.ver = v
  ok : ∀ c e, m.now c ≠ .failed e

theorem limit_acts (l : List Act) (s : Backed) : (acts l s).cache.limit = s.cache.limit := C45.acts_limit l s

theorem calm_step (hone : ∀ c d, proc c = proc d) (hmay : ∀ s w, may s w → Plain what s w) (ht : Tracked what m)
    (h : Calm what m proc) (hs : Step proc may m m') : Calm what m' proc := by
  have at_ : ∀ {c : κ} {a : At}, m.now c = a → Wants what m.backed.store a := fun {c a} e => e ▸ ht.wants c
  have shut : ∀ c d v rest e r, m.now d = .deleting v rest e r → m.open (proc c) → False := by
    intro c d v rest e r hd ho
    have := (h.lock d v rest e r hd).2.1
    rw [hone d c] at this
    rw [Many.open, this] at ho
    cases ho
  have quiet : ∀ (c : κ) (a : At) (l : List Act) (b : Bool), (b = true → m.open (proc c)) →
      (∀ e, a ≠ .failed e) → (∀ v rest e r, a ≠ .deleting v rest e r) → Calm what (m.go c a l b) proc := by
    intro c a l b h0 h1 h2
    refine ⟨by rw [show (m.go c a l b).backed = acts l m.backed from rfl, limit_acts]; exact h.limit, ?_, ?_⟩
    · intro d v rest e r hd
      simp only [Many.go, Function.update_apply] at hd
      split at hd
      · exact absurd hd (h2 v rest e r)
      · have := h.lock d v rest e r hd
        refine ⟨this.1, this.2.1, ?_⟩
        cases b with
        | false => exact this.2.2
        | true => exact (shut c d v rest e r hd (h0 rfl)).elim
    · intro d e
      simp only [Many.go, Function.update_apply]
      split
      · exact h1 e
      · exact h.ok d e
  have alone : ∀ c d v rest e r v' rest' e' r', m.now c = .deleting v rest e r → m.now d = .deleting v' rest' e' r' → d = c := by
    intro c d v rest e r v' rest' e' r' hc hd
    have h1 := (h.lock c v rest e r hc).2.1
    have h2 := (h.lock d v' rest' e' r' hd).2.1
    rw [hone d c, h1] at h2
    cases h2
    rfl
  cases hs with
  | ask c w h1 h2 =>
    have := hmay _ w h2
    cases w with
    | read always n => cases always <;> exact quiet c _ _ _ (by simp) (by simp [start]) (by simp [start])
    | write n x => exact quiet c _ _ _ (by simp) (by simp [start]) (by simp [start])
    | remove n => cases this
  | openHit c n x h1 h2 => exact quiet c _ _ _ (by simp) (by simp) (by simp)
  | openMiss c n h1 h2 => exact quiet c _ _ _ (by simp) (by simp) (by simp)
  | use c n x t h1 h2 => exact quiet c _ _ _ (fun _ => h2) (by simp) (by simp)
  | drop c n h1 h2 => exact quiet c _ _ _ (fun _ => h2) (by simp) (by simp)
  | fetch c n p x h1 h2 h3 => exact quiet c _ _ _ (by simp) (by simp) (by simp)
  | fetchNot c n p h1 h2 h3 =>
    obtain ⟨k, id, rfl, h4⟩ := at_ h1
    rw [placed] at h2
    cases h2
    exact absurd h3 h4
  | fetchBad c n e h1 h2 =>
    obtain ⟨k, id, rfl, h4⟩ := at_ h1
    rw [placed] at h2
    cases h2
  | put c n p x h1 h2 => exact quiet c _ _ _ (by simp) (by simp) (by simp)
  | putBad c n x e h1 h2 =>
    obtain ⟨k, id, rfl, _⟩ := at_ h1
    rw [placed] at h2
    cases h2
  | keepRead c n x h1 => exact quiet c _ _ _ (by simp) (by simp) (by simp)
  | keepWrite c n x h1 => exact quiet c _ _ _ (by simp) (by simp) (by simp)
  | row c n x r t h1 h2 => exact quiet c _ _ _ (fun _ => h2) (by simp) (by simp)
  | scan c r l h1 h2 h3 =>
    refine ⟨h.limit, ?_, ?_⟩
    · intro d v rest e r hd
      simp only [Many.go, Function.update_apply] at hd
      split at hd
      · rename_i hdc
        subst hdc
        cases hd
        exact ⟨C45.prune_ok h.limit, by simp, rfl⟩
      · exact (shut c d v rest e r hd h2).elim
    · intro d e
      simp only [Many.go, Function.update_apply]
      split
      · simp
      · exact h.ok d e
  | unkeep c v n rest e r h1 =>
    have hl := h.lock c _ _ _ _ h1
    refine ⟨h.limit, ?_, ?_⟩
    · intro d v' rest' e' r' hd
      simp only [Many.go, Function.update_apply] at hd
      split at hd
      · rename_i hdc
        subst hdc
        cases hd
        exact hl
      · rename_i hdc
        exact absurd (alone c d _ _ _ _ _ _ _ _ h1 hd) hdc
    · intro d e
      simp only [Many.go, Function.update_apply]
      split
      · simp
      · exact h.ok d e
  | commit c v o rest e r h1 h2 =>
    have hl := h.lock c _ _ _ _ h1
    refine ⟨h.limit, ?_, ?_⟩
    · intro d v' rest' e' r' hd
      simp only [Many.go, Function.update_apply] at hd
      split at hd
      · rename_i hdc
        subst hdc
        cases hd
        exact ⟨hl.1, hl.2.1, by simp [Many.go, h2]⟩
      · rename_i hdc
        exact absurd (alone c d _ _ _ _ _ _ _ _ h1 hd) hdc
    · intro d e
      simp only [Many.go, Function.update_apply]
      split
      · simp
      · exact h.ok d e
  | busy c v o rest e r h1 h2 => exact absurd (h.lock c _ _ _ _ h1).2.2 h2
  | pruned c v r h1 =>
    refine ⟨h.limit, ?_, ?_⟩
    · intro d v' rest' e' r' hd
      simp only [Many.go, Function.update_apply] at hd
      split at hd
      · cases hd
      · rename_i hdc
        exact absurd (alone c d _ _ _ _ _ _ _ _ h1 hd) hdc
    · intro d e
      simp only [Many.go, Function.update_apply]
      split
      · simp
      · exact h.ok d e
  | prunedBad c v e r h1 => cases (h.lock c _ _ _ _ h1).1
  | evict c n h1 => cases at_ h1
  | unrow c n h1 h2 => cases at_ h1
  | take c n p x h1 h2 h3 => cases at_ h1
  | takeNot c n p h1 h2 h3 => cases at_ h1
  | takeBad c n e h1 h2 => cases at_ h1

/-- The threads of one process do not make one another's requests fail. -/
theorem never_fails_partial {store : Bytes → Option Bytes} {limit : Nat} (hone : ∀ c d, proc c = proc d)
    (hlim : limit ≠ 0) (hmay : ∀ s w, may s w → Plain what s w) (h : Reachable proc may store limit m) (c : κ) (e : Fail) :
    m.now c ≠ .failed e := by
  suffices hc : Calm what m proc from hc.ok c e
  induction h with
  | refl => exact ⟨hlim, fun _ _ _ _ _ h => (by cases h), fun _ _ h => (by cases h)⟩
  | tail hr hs ih => exact calm_step hone hmay (tracked_inv hmay hr) ih hs

end

/-! ## Runs -/

abbrev n1 : Bytes := objectName .pack C45.idE
abbrev n2 : Bytes := objectName .index C45.idE

theorem n12 : n1 ≠ n2 := fun h => by cases (name_inj h).1

/-- A backend that holds everything, each object being the same three bytes. -/
def full : Bytes → Option Bytes := fun _ => some [1, 2, 3]

abbrev Reads : (Bytes → Option Bytes) → Want → Prop := fun s w => Plain C45.whatE s w

theorem plain (b : Bool) (k : Shelf) : Plain C45.whatE full (.read b (objectName k C45.idE)) := ⟨k, C45.idE, rfl, by simp [full]⟩

/-- A thread reads what is not in the cache, up to where it has noted it. -/
theorem reads {κ π : Type} [DecidableEq κ] [DecidableEq π] {proc : κ → π} {may : (Bytes → Option Bytes) → Want → Prop}
    {m : Many κ π} {c : κ} {k : Shelf} (t : Int)
    (hmay : may m.backed.store (.read false (objectName k C45.idE))) (hst : m.backed.store = full)
    (hfree : (m.now c).free = true) (hf : m.backed.cache.files (objectName k C45.idE) = none)
    (hr : m.backed.cache.rows (objectName k C45.idE) = none) (ho : m.open (proc c)) :
    Relation.ReflTransGen (Step proc may) m { m with
      backed := acts [.keep (objectName k C45.idE) [1, 2, 3], .row (objectName k C45.idE) t 3] m.backed
      ver := m.ver + 1
      now := Function.update m.now c (.pruning (some (objectName k C45.idE, [1, 2, 3]))) } := by
  have e : ∀ (l l' : List Act) (a b : At) (w w' : Bool), (m.go c a l w).go c b l' w' =
      { m with backed := acts (l ++ l') m.backed,
               ver := if w' then (if w then m.ver + 1 else m.ver) + 1 else (if w then m.ver + 1 else m.ver),
               now := Function.update m.now c b } := by
    intro l l' a b w w'
    simp only [Many.go, acts, List.foldl_append, Function.update_idem]
  have hu : acts [.unrow (objectName k C45.idE)] m.backed = m.backed := by
    have : setAt m.backed.cache.rows (objectName k C45.idE) none = m.backed.cache.rows := by
      funext n
      simp only [setAt]
      split
      · rename_i h; rw [h, hr]
      · rfl
    simp only [acts, List.foldl, act, this]
  refine .head (.ask m c _ hfree hmay) (.head (.openMiss _ c (objectName k C45.idE) (by simp [Many.go, start]) hf) ?_)
  rw [e]
  refine .head (.drop _ c (objectName k C45.idE) (by simp) ho) ?_
  simp only [Many.go, Function.update_idem, Bool.false_eq_true, if_false, List.append_nil, acts, List.foldl]
  rw [hr]
  simp only [Option.isSome_none, Bool.false_eq_true, if_false]
  rw [show act (.unrow (objectName k C45.idE)) m.backed = m.backed from hu]
  refine .head (.fetch _ c (objectName k C45.idE) _ [1, 2, 3] (by simp) (placed k C45.idE) (by simp [hst, full])) ?_
  refine .head (.keepRead _ c (objectName k C45.idE) [1, 2, 3] (by simp [Many.go])) ?_
  refine .head (.row _ c (objectName k C45.idE) [1, 2, 3] (some (objectName k C45.idE, [1, 2, 3])) t (by simp [Many.go]) ho) ?_
  simp only [Many.go, Function.update_idem, Bool.false_eq_true, if_false, if_true, acts, List.foldl]
  exact .refl

theorem latest1 : Latest (acts [.keep n1 [1, 2, 3], .row n1 1 3] (init full 1 : Many Bool Bool).backed).cache [⟨n1, 1, 3⟩] := by
  refine ⟨?_, by simp, by simp⟩
  rintro ⟨n, t, s⟩
  simp only [acts, List.foldl, act, setAt, init, List.mem_singleton, Row.mk.injEq]
  split
  · rename_i h
    simp [h, eq_comm]
  · rename_i h
    simp [h]

/-- Two processes read different objects. While the one prunes the cache, the other notes its object; the read of the
first fails, though its object is there and was read. -/
theorem busy_fails : ∃ m : Many Bool Bool, Reachable id Reads full 1 m ∧ C45.Holds C45.whatE full ∧
    m.now true = .failed (.err "database is locked") := by
  have h1 := reads (proc := (id : Bool → Bool)) (may := Reads) (m := init full 1) (c := true) (k := .pack) 1
    (plain _ _) rfl rfl rfl rfl rfl
  have h2 := h1.tail (.scan _ true (some (n1, [1, 2, 3])) [⟨n1, 1, 3⟩] rfl rfl latest1)
  have h3 := h2.trans (reads (proc := (id : Bool → Bool)) (may := Reads) (c := false) (k := .index) 2
    (plain _ _) rfl rfl (by simp [Many.go, init, acts, act, setAt, n12.symm]) (by simp [Many.go, init, acts, act, setAt, n12.symm]) rfl)
  have h4 := h3.tail (.busy _ true 1 1 [] none (some (n1, [1, 2, 3])) rfl (by simp [Many.go, init]))
  exact ⟨_, h4, fun k id x hx => by cases hx; rfl, rfl⟩

/-- A thread that has noted its object when nothing else was in a cache with room ends its read. -/
theorem ends {κ π : Type} [DecidableEq κ] [DecidableEq π] {proc : κ → π} {may : (Bytes → Option Bytes) → Want → Prop}
    {m : Many κ π} {c : κ} {r : Option (Bytes × Bytes)} {n : Bytes} {t : Int} (hc : m.now c = .pruning r)
    (ho : ∀ p, m.lock p = none) (hrows : ∀ n', m.backed.cache.rows n' = if n' = n then some (t, 3) else none)
    (hlim : m.backed.cache.limit = 10) :
    Relation.ReflTransGen (Step proc may) m { m with now := Function.update m.now c (.done r) } := by
  have hl : Latest m.backed.cache [⟨n, t, 3⟩] := by
    refine ⟨?_, by simp, by simp⟩
    rintro ⟨n', t', s'⟩
    rw [hrows]
    simp only [List.mem_singleton, Row.mk.injEq]
    split
    · rename_i h; simp [h, eq_comm]
    · rename_i h; simp [h]
  have hp : pruneActs m.backed.cache.limit [⟨n, t, 3⟩] = ([], none) := by
    rw [hlim]; simp [pruneActs, scan]
  refine .head (.scan m c r _ hc (ho _) hl) ?_
  rw [hp]
  refine .head (.pruned _ c m.ver r (by simp [Many.go])) ?_
  have hlock : Function.update m.lock (proc c) none = m.lock := by
    rw [← ho (proc c), Function.update_eq_self]
  simp only [Many.go, Function.update_idem, Bool.false_eq_true, if_false, acts, List.foldl, hlock]
  exact .refl

/-- A thread finds that an object is not in the cache. Another reads it, and it is in the cache and noted there. The
first drops the note, and its process is killed. The file stays, and no prune will ever find it. -/
theorem uncounted : ∃ m : Many Bool Bool, Reachable id Reads full 10 m ∧ C45.Holds C45.whatE full ∧
    m.now false = .done (some (n1, [1, 2, 3])) ∧ m.now true = .fetching n1 ∧
    m.backed.cache.files n1 = some [1, 2, 3] ∧ m.backed.cache.rows n1 = none ∧
    ∀ l, Latest m.backed.cache l → Act.unkeep n1 ∉ (pruneActs m.backed.cache.limit l).1 := by
  let m0 : Many Bool Bool := init full 10
  have h1 : Step id Reads m0 _ := .ask m0 true (.read false n1) rfl (plain _ _)
  have h2 := (Relation.ReflTransGen.single h1).tail (.openMiss _ true n1 rfl rfl)
  have h3 := h2.trans (reads (proc := (id : Bool → Bool)) (may := Reads) (c := false) (k := .pack) 1
    (plain _ _) rfl rfl rfl rfl rfl)
  have h4 := h3.trans (ends (n := n1) (t := 1) (c := false) rfl (fun _ => rfl) (fun n' => by
    simp [Many.go, m0, init, acts, act, setAt]) rfl)
  have h5 := h4.tail (.drop _ true n1 rfl rfl)
  refine ⟨_, h5, fun k id x hx => by cases hx; rfl, rfl, rfl, ?_, ?_, ?_⟩
  · simp [Many.go, m0, init, acts, act, setAt]
  · simp [Many.go, m0, init, acts, act, setAt]
  · intro l hl hmem
    have hnone : ∀ t k, (⟨n1, t, k⟩ : Row) ∉ l := by
      intro t k hm
      have := (hl.rows _).mp hm
      simp [Many.go, m0, init, acts, act, setAt] at this
    have : ∀ {rest : List Row}, (∀ r ∈ rest, r ∈ l) → Act.unkeep n1 ∉ rest.map (fun r => Act.unkeep r.name) := by
      intro rest hr hm
      obtain ⟨⟨n, t, k⟩, h6, h7⟩ := List.mem_map.mp hm
      cases h7
      exact hnone t k (hr _ h6)
    unfold pruneActs at hmem
    split at hmem
    · cases hmem
    · rename_i last rest hs
      obtain ⟨kept, h6, _⟩ := C46.scan_some hs
      have hr : ∀ r ∈ rest, r ∈ l := fun r h => h6 ▸ List.mem_append_right _ h
      cases last with
      | none => exact this hr hmem
      | some o =>
        rcases List.mem_append.mp hmem with h7 | h7
        · exact this hr h7
        · cases List.mem_singleton.mp h7

abbrev Any : (Bytes → Option Bytes) → Want → Prop := fun _ w => Named C45.whatE w

/-- A thread has read an object from the backend. Another removes the object, from the cache and the backend, and that
succeeds. The first puts it in the cache. From now on it can be read, though it is gone. -/
theorem read_when_gone : ∃ m : Many Bool Bool, Reachable id Any full 10 m ∧ C45.Holds C45.whatE full ∧
    m.backed.store (place .pack C45.idE) = none ∧ m.now true = .done (some (n1, [1, 2, 3])) ∧
    m.now false = .done (some (n1, [1, 2, 3])) := by
  let m0 : Many Bool Bool := init full 10
  have h1 : Step id Any m0 _ := .ask m0 true (.read true n1) rfl ⟨_, _, rfl⟩
  have h2 := (Relation.ReflTransGen.single h1).tail (.fetch _ true n1 _ [1, 2, 3] rfl (placed .pack C45.idE) rfl)
  have h3 := h2.tail (.ask _ false (.remove n1) rfl ⟨_, _, rfl⟩)
  have h4 := h3.tail (.evict _ false n1 rfl)
  have h5 := h4.tail (.unrow _ false n1 rfl rfl)
  have h6 := h5.tail (.take _ false n1 _ [1, 2, 3] rfl (placed .pack C45.idE) rfl)
  have h7 := h6.tail (.keepRead _ true n1 [1, 2, 3] rfl)
  have h8 := h7.tail (.row _ true n1 [1, 2, 3] _ 1 rfl rfl)
  have h9 := h8.trans (ends (n := n1) (t := 1) (c := true) rfl (fun _ => rfl) (fun n' => by
    simp only [Many.go, m0, init, acts, List.foldl, act, setAt]
    split <;> rfl) rfl)
  have h10 := h9.tail (.ask _ false (.read false n1) rfl ⟨_, _, rfl⟩)
  have h11 := h10.tail (.openHit _ false n1 [1, 2, 3] rfl (by simp [Many.go, m0, init, acts, act, setAt]))
  have h12 := h11.tail (.use _ false n1 [1, 2, 3] 2 rfl rfl)
  refine ⟨_, h12, fun k id x hx => by cases hx; rfl, ?_, rfl, rfl⟩
  simp [Many.go, m0, init, acts, act, setAt, place]

/-- Two threads of one process read the same object at the same time: both fetch it. -/
example : ∃ m : Many Bool Unit, Reachable (fun _ => ()) Reads full 10 m ∧
    (∀ c, (m.now c).free = true) ∧ m.now true = .done (some (n1, [1, 2, 3])) ∧
    m.now false = .done (some (n1, [1, 2, 3])) ∧ ∃ t, m.backed.cache.rows n1 = some (t, 3) := by
  let m0 : Many Bool Unit := init full 10
  have h1 : Step (fun _ => ()) Reads m0 _ := .ask m0 true (.read true n1) rfl (plain _ _)
  have h2 := (Relation.ReflTransGen.single h1).tail (.fetch _ true n1 _ [1, 2, 3] rfl (placed .pack C45.idE) rfl)
  have h3 := h2.trans (reads (may := Reads) (c := false) (k := .pack) 1 (plain _ _) rfl rfl rfl rfl rfl)
  have h4 := h3.tail (.keepRead _ true n1 [1, 2, 3] rfl)
  have h5 := h4.trans (ends (n := n1) (t := 1) (c := false) rfl (fun _ => rfl) (fun n' => by
    simp [Many.go, m0, init, acts, act, setAt]) rfl)
  have h6 := h5.tail (.row _ true n1 [1, 2, 3] _ 2 rfl rfl)
  have h7 := h6.trans (ends (n := n1) (t := 2) (c := true) rfl (fun _ => rfl) (fun n' => by
    simp only [Many.go, m0, init, acts, List.foldl, act, setAt]
    split <;> rfl) rfl)
  refine ⟨_, h7, ?_, rfl, rfl, ?_⟩
  · rintro (_ | _) <;> rfl
  · refine ⟨2, ?_⟩
    simp [Many.go, m0, init, acts, act, setAt]

end Backpak.C68
