import Verif.Model.Filtered
import Verif.Props.C45

/-!
# C61 - A repository behind a filter is the same repository
-/

namespace Backpak.C61

open Backed

/-- What a store holds, seen through the unfilter program. -/
def view (u : Bytes → Option Bytes) (s : Backed) : Backed := { s with store := fun p => (s.store p).bind u }

/-- Requests to a repository behind a filter; with a write goes what the filter makes of the object. -/
inductive Req
  | read (always : Bool) (now : Int) (k : Shelf) (id : ObjectId)
  | write (made : Option Bytes) (now : Int) (k : Shelf) (id : ObjectId) (x : Bytes)
  | remove (k : Shelf) (id : ObjectId)

def Req.acts (u : Bytes → Option Bytes) (order : Cache → List Row) (s : Backed) : Req → List Act
  | .read always now k id => (readThrough u order always now (objectName k id) s).acts
  | .write made now k id x => (writeThrough made order now (objectName k id) x s).acts
  | .remove k id => (Backed.remove (objectName k id) s).acts

/-- Objects are named after what is in them, and the unfilter program undoes what the filter program did,
if it did anything. -/
def Req.Allowed (u : Bytes → Option Bytes) (what : Shelf → ObjectId → Bytes) : Req → Prop
  | .write made _ k id x => x = what k id ∧ ∀ y, made = some y → u y = some x
  | _ => True

/-- How a cache and a backend behind a filter may come to be: from nothing, by requests one after the
other, each of which may be cut short after any of its steps. -/
inductive Used (u : Bytes → Option Bytes) (what : Shelf → ObjectId → Bytes) : Backed → Prop
  | new (limit : Nat) : Used u what ⟨⟨fun _ => none, fun _ => none, limit⟩, fun _ => none⟩
  | request {s : Backed} (order : Cache → List Row) {r : Req} {pre : List Act} : Used u what s →
    r.Allowed u what → pre <+: r.acts u order s → Used u what (acts pre s)

/-! ## Each step, seen through the unfilter program -/

/-- A step as it looks. -/
def seen (u : Bytes → Option Bytes) : Act → Act
  | .put p y => .put p ((u y).getD [])
  | a => a

/-- A step that writes only what can be unfiltered. -/
def Clear (u : Bytes → Option Bytes) : Act → Prop
  | .put _ y => u y ≠ none
  | _ => True

theorem act_view {u : Bytes → Option Bytes} {a : Act} (h : Clear u a) (s : Backed) :
    act (seen u a) (view u s) = view u (act a s) := by
  cases a with
  | put p y =>
    obtain ⟨x, hx⟩ := Option.ne_none_iff_exists'.mp h
    simp only [seen, hx, Option.getD_some, act, view]
    congr 1
    funext q
    simp only [setAt]
    split
    · simp [hx]
    · rfl
  | take p =>
    simp only [seen, act, view]
    congr 1
    funext q
    simp only [setAt]
    split <;> rfl
  | _ => rfl

theorem acts_view {u : Bytes → Option Bytes} {l : List Act} (h : ∀ a ∈ l, Clear u a) (s : Backed) :
    acts (l.map (seen u)) (view u s) = view u (acts l s) := by
  induction l generalizing s with
  | nil => rfl
  | cons a l ih =>
    show acts (l.map (seen u)) (act (seen u a) (view u s)) = view u (acts l (act a s))
    rw [act_view (h a (by simp)), ih (fun b hb => h b (by simp [hb]))]

/-- Steps other than writing look as they are. -/
theorem seen_plain {u : Bytes → Option Bytes} {l : List Act} (h : ∀ p y, Act.put p y ∉ l) :
    l.map (seen u) = l ∧ ∀ a ∈ l, Clear u a := by
  induction l with
  | nil => exact ⟨rfl, fun _ h => (by cases h)⟩
  | cons a l ih =>
    obtain ⟨h1, h2⟩ := ih (fun p y hm => h p y (by simp [hm]))
    refine ⟨?_, ?_⟩
    · rw [List.map_cons, h1]
      cases a with
      | put p y => exact absurd (by simp) (h p y)
      | _ => rfl
    · intro b hb
      rcases List.mem_cons.mp hb with rfl | hb
      · cases b with
        | put p y => exact absurd (by simp) (h p y)
        | _ => trivial
      · exact h2 b hb

theorem prune_plain (limit : Nat) (rows : List Row) (p y : Bytes) : Act.put p y ∉ (pruneActs limit rows).1 := by
  unfold pruneActs
  split
  · simp
  · rename_i last rest _
    cases last <;> simp

/-- Pruning depends on the cache alone. -/
theorem thenPrune_view {α : Type} {u : Bytes → Option Bytes} {order : Cache → List Row} {s : Backed} {l : List Act}
    {x : α} (h : ∀ a ∈ l, Clear u a) :
    (thenPrune order s l x).acts.map (seen u) = (thenPrune order (view u s) (l.map (seen u)) x).acts ∧
    (thenPrune order s l x).result = (thenPrune order (view u s) (l.map (seen u)) x).result ∧
    ∀ a ∈ (thenPrune order s l x).acts, Clear u a := by
  have hv := acts_view h s
  have hc : (acts (l.map (seen u)) (view u s)).cache = (acts l s).cache := by rw [hv]; rfl
  unfold thenPrune
  dsimp only
  rw [hc]
  have hpl := seen_plain (u := u) (prune_plain (acts l s).cache.limit (order (acts l s).cache))
  cases hp : pruneActs (acts l s).cache.limit (order (acts l s).cache) with
  | mk l' e =>
    rw [hp] at hpl
    dsimp only at hpl
    cases e
    all_goals
      refine ⟨?_, rfl, ?_⟩
      · simp only [List.map_append, hpl.1]
      · intro a ha
        rcases List.mem_append.mp ha with ha | ha
        · exact h a ha
        · exact hpl.2 a ha

/-- A read through the filter is a read of what is seen through it. -/
theorem read_view (u : Bytes → Option Bytes) (order : Cache → List Row) (always : Bool) (now : Int) (k : Shelf)
    (id : ObjectId) (s : Backed) :
    (readThrough u order always now (objectName k id) s).acts.map (seen u) =
      (Backed.read order always now (objectName k id) (view u s)).acts ∧
    (∀ a ∈ (readThrough u order always now (objectName k id) s).acts, Clear u a) ∧
    ∀ x, (readThrough u order always now (objectName k id) s).result = .ok x ↔
      (Backed.read order always now (objectName k id) (view u s)).result = .ok x := by
  have fetch : ∀ l : List Act, (∀ p y, Act.put p y ∉ l) →
      let a := (match s.store (C45.place k id) with
        | none => (⟨l, .error (.err "Couldn't open")⟩ : Outcome Bytes)
        | some y => match u y with
          | none => ⟨l, .error (.err "unfilter failed")⟩
          | some x => thenPrune order s (l ++ [Act.keep (objectName k id) x, Act.row (objectName k id) now x.length]) x)
      let b := (match (view u s).store (C45.place k id) with
        | none => (⟨l, .error (.err "Couldn't open")⟩ : Outcome Bytes)
        | some x => thenPrune order (view u s) (l ++ [Act.keep (objectName k id) x, Act.row (objectName k id) now x.length]) x)
      a.acts.map (seen u) = b.acts ∧ (∀ c ∈ a.acts, Clear u c) ∧ ∀ x, a.result = .ok x ↔ b.result = .ok x := by
    intro l hl
    have hs := seen_plain (u := u) hl
    show _ ∧ _
    simp only [view]
    cases hst : s.store (C45.place k id) with
    | none => exact ⟨hs.1, hs.2, fun x => ⟨fun h => (by cases h), fun h => (by cases h)⟩⟩
    | some y =>
      simp only [Option.bind_some]
      cases hu : u y with
      | none => exact ⟨hs.1, hs.2, fun x => ⟨fun h => (by cases h), fun h => (by cases h)⟩⟩
      | some x =>
        have hpl := seen_plain (u := u) (l := l ++ [.keep (objectName k id) x, .row (objectName k id) now x.length])
          (by intro p y; simp [hl p y])
        have := thenPrune_view (u := u) (order := order) (s := s) (x := x) hpl.2
        rw [hpl.1] at this
        exact ⟨this.1, this.2.2, fun z => by rw [this.2.1]; rfl⟩
  simp only [readThrough, Backed.read, C45.placed]
  split
  · exact fetch [] (by simp)
  · have hcache : (view u s).cache = s.cache := rfl
    rw [hcache]
    cases s.cache.files (objectName k id) with
    | some x => exact ⟨rfl, by simp [Clear], fun x => Iff.rfl⟩
    | none => exact fetch [.unrow (objectName k id)] (by simp)

/-- What a filtered request looks like. -/
def plain : Req → C45.Req
  | .read always now k id => .read always now k id
  | .write _ now k id x => .write now k id x
  | .remove k id => .remove k id

/-- Everything in the backend can be unfiltered. -/
def AllClear (u : Bytes → Option Bytes) (s : Backed) : Prop := ∀ p y, s.store p = some y → u y ≠ none

theorem act_clear {u : Bytes → Option Bytes} {a : Act} (h : Clear u a) {s : Backed} (hs : AllClear u s) :
    AllClear u (act a s) := by
  cases a with
  | put p y =>
    intro q z hq
    simp only [act, setAt] at hq
    split at hq
    · cases hq; exact h
    · exact hs q z hq
  | take p =>
    intro q z hq
    simp only [act, setAt] at hq
    split at hq
    · cases hq
    · exact hs q z hq
  | _ => exact hs

theorem acts_clear {u : Bytes → Option Bytes} {l : List Act} (h : ∀ a ∈ l, Clear u a) {s : Backed} (hs : AllClear u s) :
    AllClear u (acts l s) := by
  induction l generalizing s with
  | nil => exact hs
  | cons a l ih => exact ih (s := act a s) (fun b hb => h b (by simp [hb])) (act_clear (h a (by simp)) hs)

/-- Every request through the filter looks like the same request without, or like none. -/
theorem request_view {u : Bytes → Option Bytes} {what : Shelf → ObjectId → Bytes} {r : Req} (hr : r.Allowed u what)
    (order : Cache → List Row) {s : Backed} (hs : AllClear u s) :
    (r.acts u order s).map (seen u) <+: (plain r).acts order (view u s) ∧ ∀ a ∈ r.acts u order s, Clear u a := by
  cases r with
  | read always now k id =>
    have := read_view u order always now k id s
    exact ⟨by rw [Req.acts, this.1]; exact List.prefix_refl _, this.2.1⟩
  | write made now k id x =>
    simp only [Req.acts, writeThrough, plain, C45.Req.acts, Backed.write, C45.placed]
    cases made with
    | none => exact ⟨List.nil_prefix, fun _ h => (by cases h)⟩
    | some y =>
      have hy := hr.2 y rfl
      have hcl : ∀ a ∈ [Act.put (C45.place k id) y, .keep (objectName k id) x, .row (objectName k id) now x.length],
          Clear u a := by
        simp [Clear, hy]
      have := thenPrune_view (u := u) (order := order) (s := s) (x := ()) hcl
      simp only [List.map_cons, List.map_nil, seen, hy, Option.getD_some] at this
      exact ⟨by rw [this.1]; exact List.prefix_refl _, this.2.2⟩
  | remove k id =>
    simp only [Req.acts, plain, C45.Req.acts, Backed.remove, C45.placed]
    have hv : (view u s).store (C45.place k id) = (s.store (C45.place k id)).bind u := rfl
    rw [hv]
    cases hst : s.store (C45.place k id) with
    | none => exact ⟨List.prefix_refl _, by simp [Clear]⟩
    | some y =>
      obtain ⟨x, hx⟩ := Option.ne_none_iff_exists'.mp (hs _ _ hst)
      simp only [Option.bind_some, hx]
      exact ⟨List.prefix_refl _, by simp [Clear]⟩

theorem used_view {u : Bytes → Option Bytes} {what : Shelf → ObjectId → Bytes} {s : Backed} (h : Used u what s) :
    C45.Used what False (view u s) ∧ AllClear u s := by
  induction h with
  | new limit => exact ⟨.new limit (fun _ _ _ h => by cases h), fun _ _ h => (by cases h)⟩
  | @request s order r pre _ hr hp ih =>
    obtain ⟨h1, h2⟩ := request_view hr order ih.2
    have hcl : ∀ a ∈ pre, Clear u a := fun a ha => h2 a (hp.subset ha)
    refine ⟨?_, acts_clear hcl ih.2⟩
    rw [← acts_view hcl]
    refine .request order (r := plain r) ih.1 ?_ (List.IsPrefix.trans (hp.map (seen u)) h1)
    cases r with
    | write made now k id x => exact hr.1
    | _ => trivial

/-! ## What is read -/

/-- Whatever was written, removed, read and cut short before, a read gives what belongs under the name or
fails. -/
theorem true_reads {u : Bytes → Option Bytes} {what : Shelf → ObjectId → Bytes} {s : Backed} (h : Used u what s)
    {order : Cache → List Row} {always : Bool} {now : Int} {k : Shelf} {id : ObjectId} {x : Bytes}
    (hr : (readThrough u order always now (objectName k id) s).result = .ok x) : x = what k id :=
  C45.true_reads (used_view h).1 (((read_view u order always now k id s).2.2 x).mp hr)

/-- What can be read is exactly what is in the backend, unfiltered. -/
theorem reads_iff {u : Bytes → Option Bytes} {what : Shelf → ObjectId → Bytes} {s : Backed} (h : Used u what s)
    (hlim : s.cache.limit ≠ 0) (order : Cache → List Row) (always : Bool) (now : Int) (k : Shelf) (id : ObjectId)
    (x : Bytes) : (readThrough u order always now (objectName k id) s).result = .ok x ↔
      ∃ y, s.store (C45.place k id) = some y ∧ u y = some x := by
  rw [(read_view u order always now k id s).2.2 x, C45.reads_iff_partial (used_view h).1 hlim]
  exact Option.bind_eq_some_iff

/-- In particular what is listed can be read, and is what belongs there. -/
theorem listed_can_be_read {u : Bytes → Option Bytes} {what : Shelf → ObjectId → Bytes} {s : Backed} (h : Used u what s)
    (hlim : s.cache.limit ≠ 0) (order : Cache → List Row) (always : Bool) (now : Int) {k : Shelf} {id : ObjectId}
    (hl : Listed k.dir s (C45.place k id)) :
    (readThrough u order always now (objectName k id) s).result = .ok (what k id) := by
  obtain ⟨y, hy⟩ := Option.ne_none_iff_exists'.mp hl.2
  obtain ⟨x, hx⟩ := Option.ne_none_iff_exists'.mp ((used_view h).2 _ _ hy)
  have hr := (reads_iff h hlim order always now k id x).mpr ⟨y, hy, hx⟩
  rw [hr, true_reads h hr]

/-- A write that succeeds leaves what the filter made, and the object can be read. -/
theorem written {u : Bytes → Option Bytes} {what : Shelf → ObjectId → Bytes} {s : Backed} (h : Used u what s)
    (hlim : s.cache.limit ≠ 0) {order : Cache → List Row} {now : Int} {k : Shelf} {id : ObjectId} {made : Option Bytes}
    {x : Bytes} (ha : (Req.write made now k id x).Allowed u what)
    (hok : (writeThrough made order now (objectName k id) x s).result = .ok ()) (order' : Cache → List Row) (always : Bool)
    (now' : Int) :
    let s' := acts (writeThrough made order now (objectName k id) x s).acts s
    s'.store (C45.place k id) = made ∧
    (readThrough u order' always now' (objectName k id) s').result = .ok x := by
  cases made with
  | none => simp only [writeThrough, C45.placed] at hok; cases hok
  | some y =>
    have hu : Used u what (acts (writeThrough (some y) order now (objectName k id) x s).acts s) :=
      .request order (r := .write (some y) now k id x) h ha (List.prefix_refl _)
    have hst : (acts (writeThrough (some y) order now (objectName k id) x s).acts s).store (C45.place k id) = some y := by
      have := C45.written (order := order) (now := now) (k := k) (id := id) (x := x) (s := s)
      simp only [writeThrough, C45.placed]
      unfold thenPrune
      dsimp only
      have hp := C45.prune_store (acts [.put (C45.place k id) y, .keep (objectName k id) x, .row (objectName k id) now x.length] s).cache.limit
        (order (acts [.put (C45.place k id) y, .keep (objectName k id) x, .row (objectName k id) now x.length] s).cache)
        (acts [.put (C45.place k id) y, .keep (objectName k id) x, .row (objectName k id) now x.length] s)
      cases hq : pruneActs (acts [.put (C45.place k id) y, .keep (objectName k id) x, .row (objectName k id) now x.length] s).cache.limit
        (order (acts [.put (C45.place k id) y, .keep (objectName k id) x, .row (objectName k id) now x.length] s).cache) with
      | mk l' e =>
        rw [hq] at hp
        dsimp only at hp
        cases e
        all_goals
          dsimp only
          rw [C46.acts_append, hp]
          simp [acts, act, setAt]
    exact ⟨hst, (reads_iff hu (by rw [C45.acts_limit]; exact hlim) order' always now' k id x).mpr ⟨y, hst, ha.2 y rfl⟩⟩

/-- Everything in the backend is something the filter made: nothing is stored without it. -/
theorem only_filtered {u : Bytes → Option Bytes} {s : Backed} {r : Req} (order : Cache → List Row) {pre : List Act}
    (hp : pre <+: r.acts u order s) {p y : Bytes} (hy : (acts pre s).store p = some y) :
    s.store p = some y ∨ ∃ now k id x, r = .write (some y) now k id x := by
  have key : ∀ (l : List Act) (s : Backed), (acts l s).store p = some y → s.store p = some y ∨ ∃ q, Act.put q y ∈ l := by
    intro l
    induction l with
    | nil => exact fun s h => .inl h
    | cons a l ih =>
      intro s h
      rcases ih (act a s) h with h | ⟨q, h⟩
      · cases a with
        | put q z =>
          simp only [act, setAt] at h
          split at h
          · cases h; exact .inr ⟨q, by simp⟩
          · exact .inl h
        | take q =>
          simp only [act, setAt] at h
          split at h
          · cases h
          · exact .inl h
        | _ => exact .inl h
      · exact .inr ⟨q, by simp [h]⟩
  have hthen : ∀ {α : Type} (l : List Act) (x : α) (q z : Bytes), Act.put q z ∈ (thenPrune order s l x).acts →
      Act.put q z ∈ l := by
    intro α l x q z hm
    have hpl := prune_plain (acts l s).cache.limit (order (acts l s).cache) q z
    unfold thenPrune at hm
    dsimp only at hm
    cases hq : pruneActs (acts l s).cache.limit (order (acts l s).cache) with
    | mk l' e =>
      rw [hq] at hm hpl
      cases e
      all_goals
        rcases List.mem_append.mp hm with hm | hm
        · exact hm
        · exact absurd hm hpl
  rcases key pre s hy with h | ⟨q, h⟩
  · exact .inl h
  · right
    replace h := hp.subset h
    cases r with
    | read always now k id =>
      exfalso
      simp only [Req.acts, readThrough, C45.placed] at h
      split at h
      · split at h
        · cases h
        · split at h
          · cases h
          · simpa using hthen _ _ _ _ h
      · split at h
        · simp at h
        · split at h
          · simp at h
          · split at h
            · simp at h
            · simpa using hthen _ _ _ _ h
    | write made now k id x =>
      simp only [Req.acts, writeThrough, C45.placed] at h
      cases made with
      | none => cases h
      | some y' =>
        have := hthen _ _ _ _ h
        simp only [List.mem_cons, Act.put.injEq, reduceCtorEq, List.not_mem_nil, or_false] at this
        obtain ⟨_, rfl⟩ := this
        exact ⟨now, k, id, x, rfl⟩
    | remove k id =>
      exfalso
      simp only [Req.acts, Backed.remove, C45.placed] at h
      split at h <;> simp at h

/-! ## An example: a filter that adds one to every byte and one in front -/

def enc (x : Bytes) : Bytes := 7 :: x.map (· + 1)

def dec : Bytes → Option Bytes
  | 7 :: y => some (y.map (· - 1))
  | _ => none

def madeE : Bytes := [7, 2, 3, 4]

def startE : Backed := ⟨⟨fun _ => none, fun _ => none, 10⟩, fun _ => none⟩

example : Used dec C45.whatE startE ∧ startE.cache.limit ≠ 0 ∧
    (Req.write (some madeE) 1 .snapshot C45.idE [1, 2, 3]).Allowed dec C45.whatE ∧
    (writeThrough (some madeE) C45.orderE 1 (objectName .snapshot C45.idE) [1, 2, 3] startE).result = .ok () := by
  refine ⟨.new 10, by decide, ⟨rfl, fun y hy => ?_⟩, ?_⟩
  · cases hy
    decide
  · simp only [writeThrough, C45.placed]
    exact C45.thenPrune_ok (by decide)

end Backpak.C61
