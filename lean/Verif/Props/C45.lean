import Verif.Model.Cache
import Verif.Props.C46
import Verif.Props.C50

/-!
# C45 - The cache never changes what is read
-/

namespace Backpak.C45

open Backed

/-- Where an object is kept. -/
def place (k : Shelf) (id : ObjectId) : Bytes := k.dir ++ objectName k id

/-- What is asked of a backend with a cache. -/
inductive Req
  | read (always : Bool) (now : Int) (k : Shelf) (id : ObjectId)
  | write (now : Int) (k : Shelf) (id : ObjectId) (x : Bytes)
  | remove (k : Shelf) (id : ObjectId)

def Req.acts (order : Cache → List Row) (s : Backed) : Req → List Act
  | .read always now k id => (Backed.read order always now (objectName k id) s).acts
  | .write now k id x => (Backed.write order now (objectName k id) x s).acts
  | .remove k id => (Backed.remove (objectName k id) s).acts

/-- Objects are named after what is in them: what is written under a name is what belongs there. -/
def Req.Allowed (what : Shelf → ObjectId → Bytes) : Req → Prop
  | .write _ k id x => x = what k id
  | _ => True

/-- The backend holds what belongs there. -/
def Holds (what : Shelf → ObjectId → Bytes) (store : Bytes → Option Bytes) : Prop :=
  ∀ k id x, store (place k id) = some x → x = what k id

/-- How a cache and a backend may come to be: from an empty cache and any backend, by requests one
after the other, each of which may be cut short after any of its steps, and, if the cache is shared
with other repositories, by turning to another backend. -/
inductive Used (what : Shelf → ObjectId → Bytes) (shared : Prop) : Backed → Prop
  | new (limit : Nat) {store : Bytes → Option Bytes} : Holds what store →
    Used what shared ⟨⟨fun _ => none, fun _ => none, limit⟩, store⟩
  | request {s : Backed} (order : Cache → List Row) {r : Req} {pre : List Act} : Used what shared s →
    r.Allowed what → pre <+: r.acts order s → Used what shared (acts pre s)
  | turn {s : Backed} {store : Bytes → Option Bytes} : shared → Used what shared s → Holds what store →
    Used what shared { s with store := store }

/-! ## What stays true -/

/-- What is in the cache and in the backend is what belongs there; and what is in the cache is in the
backend, if it is the only one. -/
structure Inv (what : Shelf → ObjectId → Bytes) (shared : Prop) (s : Backed) : Prop where
  store : Holds what s.store
  files : ∀ k id x, s.cache.files (objectName k id) = some x → x = what k id
  only : ¬ shared → ∀ k id x, s.cache.files (objectName k id) = some x → s.store (place k id) = some x

/-- A step that keeps it true. -/
def Fine (what : Shelf → ObjectId → Bytes) (s : Backed) : Act → Prop
  | .put p x => ∃ k id, p = place k id ∧ x = what k id
  | .take p => ∃ k id, p = place k id ∧ s.cache.files (objectName k id) = none
  | .keep n x => ∃ k id, n = objectName k id ∧ s.store (place k id) = some x
  | _ => True

def Safe (what : Shelf → ObjectId → Bytes) : Backed → List Act → Prop
  | _, [] => True
  | s, a :: l => Fine what s a ∧ Safe what (act a s) l

theorem place_inj {k k' : Shelf} {id id' : ObjectId} (h : place k id = place k' id') : k = k' ∧ id = id' := by
  apply C50.apart
  rw [C50.placed, C50.placed]
  exact congrArg _ h

theorem act_inv {what : Shelf → ObjectId → Bytes} {shared : Prop} {s : Backed} {a : Act} (h : Inv what shared s)
    (ha : Fine what s a) : Inv what shared (act a s) := by
  cases a with
  | put p x =>
    obtain ⟨k, id, rfl, rfl⟩ := ha
    refine ⟨?_, h.files, ?_⟩
    · intro k' id' x' hx
      simp only [act, setAt] at hx
      split at hx
      · rename_i he
        obtain ⟨rfl, rfl⟩ := place_inj he
        cases hx; rfl
      · exact h.store _ _ _ hx
    · intro hs k' id' x' hx
      simp only [act, setAt]
      split
      · rename_i he
        obtain ⟨rfl, rfl⟩ := place_inj he
        rw [h.files _ _ _ hx]
      · exact h.only hs _ _ _ hx
  | take p =>
    obtain ⟨k, id, rfl, hn⟩ := ha
    refine ⟨?_, h.files, ?_⟩
    · intro k' id' x' hx
      simp only [act, setAt] at hx
      split at hx
      · cases hx
      · exact h.store _ _ _ hx
    · intro hs k' id' x' hx
      simp only [act, setAt]
      split
      · rename_i he
        obtain ⟨rfl, rfl⟩ := place_inj he
        have : s.cache.files (objectName k' id') = some x' := hx
        rw [hn] at this; cases this
      · exact h.only hs _ _ _ hx
  | keep n x =>
    obtain ⟨k, id, rfl, hx0⟩ := ha
    refine ⟨h.store, ?_, ?_⟩
    · intro k' id' x' hx
      simp only [act, setAt] at hx
      split at hx
      · rename_i he
        obtain ⟨rfl, rfl⟩ := C50.names_apart he
        cases hx
        exact h.store _ _ _ hx0
      · exact h.files _ _ _ hx
    · intro hs k' id' x' hx
      simp only [act, setAt] at hx
      split at hx
      · rename_i he
        obtain ⟨rfl, rfl⟩ := C50.names_apart he
        cases hx
        exact hx0
      · exact h.only hs _ _ _ hx
  | row n t k => exact ⟨h.store, h.files, h.only⟩
  | unkeep n =>
    have sub : ∀ {m : Bytes} {x : Bytes}, (act (.unkeep n) s).cache.files m = some x → s.cache.files m = some x := by
      intro m x hx
      simp only [act, setAt] at hx
      split at hx
      · cases hx
      · exact hx
    exact ⟨h.store, fun k id x hx => h.files k id x (sub hx), fun hs k id x hx => h.only hs k id x (sub hx)⟩
  | unrow n => exact ⟨h.store, h.files, h.only⟩
  | unrowBefore o => exact ⟨h.store, h.files, h.only⟩

theorem safe_prefix {what : Shelf → ObjectId → Bytes} {shared : Prop} {l pre : List Act} {s : Backed}
    (h : Inv what shared s) (hl : Safe what s l) (hp : pre <+: l) : Inv what shared (acts pre s) := by
  induction l generalizing s pre with
  | nil =>
    rw [List.prefix_nil.mp hp]
    exact h
  | cons a l ih =>
    cases pre with
    | nil => exact h
    | cons b pre =>
      rw [List.cons_prefix_cons] at hp
      obtain ⟨rfl, hp⟩ := hp
      exact ih (s := act b s) (pre := pre) (act_inv h hl.1) hl.2 hp

theorem safe_append {what : Shelf → ObjectId → Bytes} {l l' : List Act} {s : Backed} (h : Safe what s l)
    (h' : Safe what (acts l s) l') : Safe what s (l ++ l') := by
  induction l generalizing s with
  | nil => exact h'
  | cons a l ih => exact ⟨h.1, ih h.2 h'⟩

/-- Pruning takes away, only. -/
theorem safe_prune {what : Shelf → ObjectId → Bytes} {limit : Nat} {rows : List Row} {s : Backed} :
    Safe what s (pruneActs limit rows).1 := by
  have h : ∀ (l : List Row) (s : Backed), Safe what s (l.map (fun r => Act.unkeep r.name)) := by
    intro l
    induction l with
    | nil => exact fun _ => trivial
    | cons r l ih => exact fun s => ⟨trivial, ih _⟩
  unfold pruneActs
  split
  · exact trivial
  · rename_i last rest _
    cases last with
    | none => exact h _ _
    | some o => exact safe_append (h _ _) ⟨trivial, trivial⟩

theorem safe_thenPrune {what : Shelf → ObjectId → Bytes} {α : Type} {order : Cache → List Row} {s : Backed}
    {l : List Act} {x : α} (h : Safe what s l) : Safe what s (thenPrune order s l x).acts := by
  unfold thenPrune
  have := @safe_prune what (acts l s).cache.limit (order (acts l s).cache) (acts l s)
  revert this
  dsimp only
  cases hp : pruneActs (acts l s).cache.limit (order (acts l s).cache) with
  | mk l' e =>
    intro this
    cases e <;> exact safe_append h this

theorem placed (k : Shelf) (id : ObjectId) : destination (objectName k id) = .ok (place k id) := C50.placed k id

theorem safe_request {what : Shelf → ObjectId → Bytes} {order : Cache → List Row} {s : Backed} {r : Req}
    (hr : r.Allowed what) : Safe what s (r.acts order s) := by
  cases r with
  | read always now k id =>
    have fetch : ∀ (l : List Act), Safe what s l → (∀ y, s.store (place k id) = some y →
        (acts l s).store (place k id) = some y) →
        Safe what s (match s.store (place k id) with
          | none => (⟨l, .error (.err "Couldn't open")⟩ : Outcome Bytes)
          | some x => thenPrune order s (l ++ [Act.keep (objectName k id) x, Act.row (objectName k id) now x.length]) x).acts := by
      intro l hl hstore
      split
      · exact hl
      · rename_i x hx
        exact safe_thenPrune (safe_append hl ⟨⟨k, id, rfl, hstore _ hx⟩, trivial, trivial⟩)
    simp only [Req.acts, Backed.read, placed]
    split
    · exact fetch [] trivial (fun _ h => h)
    · split
      · exact ⟨trivial, trivial⟩
      · exact fetch [.unrow (objectName k id)] ⟨trivial, trivial⟩ (fun _ h => h)
  | write now k id x =>
    simp only [Req.acts, Backed.write, placed]
    refine safe_thenPrune ⟨⟨k, id, rfl, hr⟩, ⟨k, id, rfl, ?_⟩, trivial, trivial⟩
    simp [act, setAt]
  | remove k id =>
    simp only [Req.acts, Backed.remove, placed]
    split
    · exact ⟨trivial, trivial, trivial⟩
    · exact ⟨trivial, trivial, ⟨k, id, rfl, by simp [act, setAt]⟩, trivial⟩

theorem inv {what : Shelf → ObjectId → Bytes} {shared : Prop} {s : Backed} (h : Used what shared s) :
    Inv what shared s := by
  induction h with
  | new limit hs => exact ⟨hs, fun _ _ _ h => (by cases h), fun _ _ _ _ h => (by cases h)⟩
  | request order _ hr hp ih => exact safe_prefix ih (safe_request hr) hp
  | turn hsh _ hs ih => exact ⟨hs, ih.files, fun h => absurd hsh h⟩

/-! ## What is read -/

/-- What `prune` fails with, if it does, is a limit of nothing. -/
theorem prune_ok {limit : Nat} {rows : List Row} (h : limit ≠ 0) : (pruneActs limit rows).2 = none := by
  unfold pruneActs
  cases hs : scan limit 0 none rows with
  | none => rfl
  | some p =>
    obtain ⟨last, rest⟩ := p
    obtain ⟨kept, _, h2, h3⟩ := C46.scan_some hs
    rcases h3 with ⟨rfl, rfl⟩ | ⟨_, r, _, rfl, _⟩
    · simp [C46.total] at h2; exact absurd h2 h
    · rfl

theorem acts_limit (l : List Act) (s : Backed) : (acts l s).cache.limit = s.cache.limit := by
  induction l generalizing s with
  | nil => rfl
  | cons a l ih =>
    show (acts l (act a s)).cache.limit = _
    rw [ih]
    cases a <;> rfl

theorem thenPrune_ok {α : Type} {order : Cache → List Row} {s : Backed} {l : List Act} {x : α}
    (h : s.cache.limit ≠ 0) : (thenPrune order s l x).result = .ok x := by
  have hp := @prune_ok (acts l s).cache.limit (order (acts l s).cache) (by rw [acts_limit]; exact h)
  unfold thenPrune
  dsimp only
  cases hq : pruneActs (acts l s).cache.limit (order (acts l s).cache) with
  | mk l' e =>
    rw [hq] at hp
    dsimp only at hp
    rw [hp]

theorem thenPrune_res {α : Type} {order : Cache → List Row} {s : Backed} {l : List Act} {x y : α}
    (h : (thenPrune order s l x).result = .ok y) : y = x := by
  unfold thenPrune at h
  dsimp only at h
  split at h
  · cases h; rfl
  · cases h

/-- What a read gives: from the cache, or from the backend. -/
theorem read_from {order : Cache → List Row} {always : Bool} {now : Int} {k : Shelf} {id : ObjectId} {s : Backed}
    {x : Bytes} (h : (Backed.read order always now (objectName k id) s).result = .ok x) :
    (always = false ∧ s.cache.files (objectName k id) = some x) ∨ s.store (place k id) = some x := by
  simp only [Backed.read, placed] at h
  split at h
  · split at h
    · cases h
    · rename_i y hy
      exact .inr (by rw [hy, thenPrune_res h])
  · rename_i hal
    split at h
    · rename_i y hy
      cases h
      exact .inl ⟨by simpa using hal, hy⟩
    · split at h
      · cases h
      · rename_i y hy
        exact .inr (by rw [hy, thenPrune_res h])

/-- A read never gives anything but what belongs under the name, whatever happened to the cache, even if
it is shared with other repositories. -/
theorem true_reads {what : Shelf → ObjectId → Bytes} {shared : Prop} {s : Backed} (h : Used what shared s)
    {order : Cache → List Row} {always : Bool} {now : Int} {k : Shelf} {id : ObjectId} {x : Bytes}
    (hr : (Backed.read order always now (objectName k id) s).result = .ok x) : x = what k id := by
  rcases read_from hr with ⟨_, hf⟩ | hs
  · exact (inv h).files k id x hf
  · exact (inv h).store k id x hs

/-- What the backend holds can be read, if the limit is not nothing. -/
theorem can_read {what : Shelf → ObjectId → Bytes} {shared : Prop} {s : Backed} (h : Used what shared s)
    (hlim : s.cache.limit ≠ 0) (order : Cache → List Row) (always : Bool) (now : Int) {k : Shelf} {id : ObjectId}
    {x : Bytes} (hs : s.store (place k id) = some x) :
    (Backed.read order always now (objectName k id) s).result = .ok x := by
  simp only [Backed.read, placed, hs]
  split
  · exact thenPrune_ok hlim
  · split
    · rename_i y hy
      rw [(inv h).files k id y hy, (inv h).store k id x hs]
    · exact thenPrune_ok hlim

/-- With a cache of its own, what a read gives is what the backend holds, and what the backend does not
hold, because it was removed or never written, cannot be read. -/
theorem reads_iff_partial {what : Shelf → ObjectId → Bytes} {s : Backed} (h : Used what False s)
    (hlim : s.cache.limit ≠ 0) (order : Cache → List Row) (always : Bool) (now : Int) (k : Shelf) (id : ObjectId)
    (x : Bytes) :
    (Backed.read order always now (objectName k id) s).result = .ok x ↔ s.store (place k id) = some x := by
  refine ⟨fun hr => ?_, can_read h hlim order always now⟩
  rcases read_from hr with ⟨_, hf⟩ | hs
  · exact (inv h).only (fun f => f) k id x hf
  · exact hs

/-- A read that goes to the backend, as those of `check` do, gives what is there, with any cache. -/
theorem always_reads {s : Backed} (hlim : s.cache.limit ≠ 0) (order : Cache → List Row) (now : Int) (k : Shelf)
    (id : ObjectId) (x : Bytes) :
    (Backed.read order true now (objectName k id) s).result = .ok x ↔ s.store (place k id) = some x := by
  refine ⟨fun hr => ?_, fun hs => ?_⟩
  · rcases read_from hr with ⟨hf, _⟩ | hs
    · cases hf
    · exact hs
  · simp only [Backed.read, placed, hs, if_true]
    exact thenPrune_ok hlim

/-! ## What is written and removed -/

/-- A request touches nothing in the backend but the object it is about. -/
theorem others {order : Cache → List Row} {s : Backed} {r : Req}
    {pre : List Act} (hp : pre <+: r.acts order s) {p : Bytes}
    (hne : ∀ now k id x, (r = .write now k id x ∨ r = .remove k id) → p ≠ place k id) :
    (acts pre s).store p = s.store p := by
  have key : ∀ (l : List Act) (s : Backed), (∀ a ∈ l, (∀ x, a ≠ .put p x) ∧ a ≠ .take p) → (acts l s).store p = s.store p := by
    intro l
    induction l with
    | nil => exact fun _ _ => rfl
    | cons a l ih =>
      intro s hl
      show (acts l (act a s)).store p = _
      rw [ih _ (fun b hb => hl b (List.mem_cons_of_mem _ hb))]
      obtain ⟨h1, h2⟩ := hl a (by simp)
      cases a with
      | put q x =>
        simp only [act, setAt]
        rw [if_neg]
        rintro rfl
        exact h1 x rfl
      | take q =>
        simp only [act, setAt]
        rw [if_neg]
        rintro rfl
        exact h2 rfl
      | _ => rfl
  have hprune : ∀ (limit : Nat) (rows : List Row) (a : Act), a ∈ (pruneActs limit rows).1 →
      (∀ x, a ≠ .put p x) ∧ a ≠ .take p := by
    intro limit rows a ha
    unfold pruneActs at ha
    split at ha
    · cases ha
    · rename_i last rest _
      cases last with
      | none =>
        obtain ⟨r, _, rfl⟩ := List.mem_map.mp ha
        exact ⟨fun x => by simp, by simp⟩
      | some o =>
        rcases List.mem_append.mp ha with ha | ha
        · obtain ⟨r, _, rfl⟩ := List.mem_map.mp ha
          exact ⟨fun x => by simp, by simp⟩
        · rw [List.mem_singleton.mp ha]
          exact ⟨fun x => by simp, by simp⟩
  have hthen : ∀ {α : Type} (l : List Act) (x : α), (∀ a ∈ l, (∀ x, a ≠ .put p x) ∧ a ≠ .take p) →
      ∀ a ∈ (thenPrune order s l x).acts, (∀ x, a ≠ .put p x) ∧ a ≠ .take p := by
    intro α l x hl a ha
    have hq := hprune (acts l s).cache.limit (order (acts l s).cache) a
    unfold thenPrune at ha
    dsimp only at ha
    cases hp : pruneActs (acts l s).cache.limit (order (acts l s).cache) with
    | mk l' e =>
      rw [hp] at ha hq
      cases e
      all_goals
        rcases List.mem_append.mp ha with ha | ha
        · exact hl a ha
        · exact hq ha
  refine key pre s (fun a ha => ?_)
  replace ha := hp.subset ha
  revert a
  cases r with
  | read always now k id =>
    simp only [Req.acts, Backed.read, placed]
    split
    · split
      · intro a ha; cases ha
      · exact hthen _ _ (by simp)
    · split
      · simp
      · split
        · simp
        · exact hthen _ _ (by simp)
  | write now k id x =>
    have := hne now k id x (.inl rfl)
    simp only [Req.acts, Backed.write, placed]
    exact hthen _ _ (by simp [Ne.symm this])
  | remove k id =>
    have := hne 0 k id [] (.inr rfl)
    simp only [Req.acts, Backed.remove, placed]
    split
    · simp
    · simp [Ne.symm this]

theorem acts_cons (a : Act) (l : List Act) (s : Backed) : acts (a :: l) s = acts l (act a s) := rfl

theorem prune_store (limit : Nat) (rows : List Row) (s : Backed) : (acts (pruneActs limit rows).1 s).store = s.store := by
  unfold pruneActs
  split
  · rfl
  · rename_i last rest _
    cases last with
    | none => exact (C46.acts_unkeep rest s).1
    | some o =>
      dsimp only
      rw [C46.acts_append]
      exact (C46.acts_unkeep rest s).1

/-- A write that succeeds leaves its object in the backend. -/
theorem written {order : Cache → List Row} {now : Int} {k : Shelf} {id : ObjectId} {x : Bytes} {s : Backed} :
    (acts (Backed.write order now (objectName k id) x s).acts s).store (place k id) = some x := by
  simp only [Backed.write, placed]
  unfold thenPrune
  dsimp only
  have h := prune_store (acts [.put (place k id) x, .keep (objectName k id) x, .row (objectName k id) now x.length] s).cache.limit
    (order (acts [.put (place k id) x, .keep (objectName k id) x, .row (objectName k id) now x.length] s).cache)
    (acts [.put (place k id) x, .keep (objectName k id) x, .row (objectName k id) now x.length] s)
  cases hp : pruneActs (acts [.put (place k id) x, .keep (objectName k id) x, .row (objectName k id) now x.length] s).cache.limit
    (order (acts [.put (place k id) x, .keep (objectName k id) x, .row (objectName k id) now x.length] s).cache) with
  | mk l' e =>
    rw [hp] at h
    dsimp only at h
    cases e
    all_goals
      dsimp only
      rw [C46.acts_append, h]
      simp [acts, act, setAt]

/-- An object that was removed is not in the backend and cannot be read, even from a cache that is
shared, until it is written or another repository is used. -/
theorem removed {s : Backed} {k : Shelf} {id : ObjectId} (order : Cache → List Row) (always : Bool) (now : Int)
    (h : (Backed.remove (objectName k id) s).result = .ok ()) (x : Bytes) :
    let s' := acts (Backed.remove (objectName k id) s).acts s
    s'.store (place k id) = none ∧ (Backed.read order always now (objectName k id) s').result ≠ .ok x := by
  have hs : (acts (Backed.remove (objectName k id) s).acts s).store (place k id) = none ∧
      (acts (Backed.remove (objectName k id) s).acts s).cache.files (objectName k id) = none := by
    simp only [Backed.remove, placed] at h ⊢
    split at h
    · cases h
    · simp [acts, act, setAt]
  refine ⟨hs.1, fun hr => ?_⟩
  rcases read_from hr with ⟨_, hf⟩ | hf
  · rw [hs.2] at hf; cases hf
  · rw [hs.1] at hf; cases hf

/-- A listing shows what the backend holds, whatever is in the cache. -/
theorem listed (s : Backed) (k : Shelf) (id : ObjectId) :
    Listed k.dir s (place k id) ↔ s.store (place k id) ≠ none :=
  ⟨fun h => h.2, fun h => ⟨List.prefix_append _ _, h⟩⟩

/-! ## Examples -/

def idE : ObjectId := ⟨List.replicate 28 0, by simp⟩

def whatE : Shelf → ObjectId → Bytes := fun _ _ => [1, 2, 3]

def orderE : Cache → List Row := fun _ => []

/-- A cache and a backend after an object was written. -/
def wroteE : Backed :=
  acts (Req.acts orderE ⟨⟨fun _ => none, fun _ => none, 10⟩, fun _ => none⟩ (.write 1 .snapshot idE [1, 2, 3]))
    ⟨⟨fun _ => none, fun _ => none, 10⟩, fun _ => none⟩

theorem usedE (shared : Prop) : Used whatE shared wroteE :=
  .request orderE (r := .write 1 .snapshot idE [1, 2, 3]) (.new 10 (fun _ _ _ h => by cases h)) rfl (List.prefix_refl _)

theorem storeE : wroteE.store (place .snapshot idE) = some [1, 2, 3] := written

theorem limitE : wroteE.cache.limit = 10 := acts_limit _ _

example : Used whatE False wroteE ∧ wroteE.cache.limit ≠ 0 ∧
    (Backed.read orderE false 2 (objectName .snapshot idE) wroteE).result = .ok [1, 2, 3] ∧
    (Backed.remove (objectName .snapshot idE) wroteE).result = .ok () := by
  have hl : wroteE.cache.limit ≠ 0 := by rw [limitE]; decide
  refine ⟨usedE _, hl, (reads_iff_partial (usedE False) hl _ _ _ _ _ _).mpr storeE, ?_⟩
  simp only [Backed.remove, placed, storeE]

/-- The cache is in one place for all repositories: what was removed from one can still be read there
once the same object was read from, or written to, another. -/
theorem shared_cache : ∃ (what : Shelf → ObjectId → Bytes) (s : Backed) (k : Shelf) (id : ObjectId) (x : Bytes),
    Used what True s ∧ s.store (place k id) = none ∧
    (Backed.read orderE false 2 (objectName k id) s).result = .ok x := by
  refine ⟨whatE, { wroteE with store := fun _ => none }, .snapshot, idE, [1, 2, 3],
    .turn trivial (usedE _) (fun _ _ _ h => by cases h), rfl, ?_⟩
  have hf : wroteE.cache.files (objectName .snapshot idE) = some [1, 2, 3] := by
    simp only [wroteE, Req.acts, Backed.write, placed, thenPrune, orderE]
    simp [acts, act, setAt, pruneActs, scan]
  simp only [Backed.read, placed, hf]
  rfl

end Backpak.C45
