import Verif.Lemmas.AnyOrder
import Verif.Lemmas.Builds

/-!
# C81: the result does not depend on the order of iteration over hash tables

`absl::flat_hash_map` goes through its entries in an order that differs from run to run.
-/

namespace Nsasm.Props
open Nsasm Nsasm.Spec

/-- The order of insertion. -/
def inserted : Iteration := ⟨fun _ l => l, fun _ l => l⟩

theorem isOrder_inserted : IsOrder inserted := fun _ _ => ⟨.refl _, .refl _⟩

theorem findAssemblyOrder_inserted (ms : List Module) :
    Assembler.findAssemblyOrderIn inserted ms = Assembler.findAssemblyOrder ms := by
  have round : ∀ (ms : List Module) (o : Assembler.Ordering) (i : Nat),
      Assembler.roundIn inserted o i ms = Assembler.round o i ms := by
    intro ms
    induction ms with
    | nil => intro o i; rfl
    | cons m ms ih =>
      intro o i
      rw [Assembler.roundIn, Assembler.round]
      have : Assembler.considerIn inserted o i m = Assembler.consider o i m := rfl
      rw [this]
      simp only [ih]
  have loop : ∀ (n : Nat) (o : Assembler.Ordering), Assembler.orderLoopIn inserted ms n o = Assembler.orderLoop ms n o := by
    intro n
    induction n with
    | zero => intro o; rfl
    | succ n ih =>
      intro o
      rw [Assembler.orderLoopIn, Assembler.orderLoop, round]
      simp only [ih]
  exact loop _ _

theorem finalPasses_inserted {σ : Type} (sink : Sink σ) : ∀ (order : List Nat) (a : Assembler) (s : σ),
    Assembler.finalPassesIn inserted sink a order s = Assembler.finalPasses sink a order s := by
  intro order
  induction order with
  | nil => intro a s; rfl
  | cons i order ih =>
    intro a s
    rw [Assembler.finalPassesIn, Assembler.finalPasses]
    cases a.modules[i]? with
    | none => rfl
    | some m =>
      have : ∀ ex : Ctx, m.assembleIn (inserted.names i m.globals) ex sink s = m.assemble ex sink s := fun _ => rfl
      simp only [this, ih]
      rfl

/-- With the order of insertion, the outcome is the one that all other theorems are about. -/
theorem C81_same_outcome {σ : Type} (fuel : Nat) (files : List (List Str)) (sink : Sink σ) (s : σ) :
    Assembler.assembleFilesIn inserted fuel files sink s = Assembler.assembleFiles fuel files sink s := by
  unfold Assembler.assembleFilesIn Assembler.assembleFiles
  cases Assembler.loadAll files with
  | err e => rfl
  | ub u => rfl
  | ok ms =>
    simp only [Assembler.assembleIn, Assembler.assemble]
    have : Assembler.prepareIn inserted fuel ms = Assembler.prepare fuel ms := by
      unfold Assembler.prepareIn Assembler.prepare
      rw [findAssemblyOrder_inserted]
    rw [this]
    cases Assembler.prepare fuel ms with
    | err e => rfl
    | ub u => rfl
    | ok r => exact finalPasses_inserted sink _ _ _

/-- The names of a loaded file stand on its statements. -/
theorem loaded_globals_lt {file : List Str} {m : Module} (h : Module.loadAsmFile file = .ok m) :
    ∀ g ∈ m.globals, g.2 < m.lines.length := by
  obtain ⟨items, -, hI, -, -⟩ := loadAsmFile_ok h
  rintro ⟨name, t⟩ hg
  rw [hI.globals] at hg
  have := mem_defs.1 (mem_tableOf.1 hg)
  rw [hI.length]
  obtain ⟨n, line, lab, e1, -⟩ := this
  exact (List.getElem?_eq_some_iff.1 e1).1

/-- Whatever the order in which the tables are gone through, the sink receives the same, and the outcome is the same: the
same error, or an assembler that gives the same answers.  Only the names that it has for addresses may be others, if several
names have the same value.

Missing: if the names of a file include one without a value and one whose value is not an address, the order decides whether an
error is reported or the program crashes (`C81_violated`). -/
theorem C81_any_order_partial {σ : Type} {it it' : Iteration} (hit : IsOrder it) (hit' : IsOrder it') (fuel : Nat)
    (files : List (List Str)) (sink : Sink σ) (s : σ) :
    (Assembler.assembleFilesIn it fuel files sink s).1 = (Assembler.assembleFilesIn it' fuel files sink s).1 ∧
      (Alike (Assembler.assembleFilesIn it fuel files sink s).2 (Assembler.assembleFilesIn it' fuel files sink s).2 ∨
        ((Assembler.assembleFilesIn it fuel files sink s).2 = .err .noValue ∧
          (Assembler.assembleFilesIn it' fuel files sink s).2 = .ub .assertFail) ∨
        ((Assembler.assembleFilesIn it fuel files sink s).2 = .ub .assertFail ∧
          (Assembler.assembleFilesIn it' fuel files sink s).2 = .err .noValue)) := by
  unfold Assembler.assembleFilesIn
  cases hload : Assembler.loadAll files with
  | err e => exact ⟨rfl, .inl (.err e)⟩
  | ub u => exact ⟨rfl, .inl (.ub u)⟩
  | ok ms =>
    simp only
    have hms : ∀ m ∈ ms, ∃ f, Module.loadAsmFile f = .ok m := fun m hm => by
      obtain ⟨f, -, h⟩ := loadAll_mem hload m hm; exact ⟨f, h⟩
    have hnd : ∀ m ∈ ms, NamesNodup m := fun m hm => by
      obtain ⟨f, h⟩ := hms m hm; exact loaded_namesNodup h
    have alike : ∀ {it : Iteration}, IsOrder it →
        OrderAlike (Assembler.findAssemblyOrder ms) (Assembler.findAssemblyOrderIn it ms) := fun hit =>
      orderLoop_alike hit hnd _ rfl (fun _ => rfl)
    have h1 := alike hit
    have h2 := alike hit'
    unfold Assembler.assembleIn Assembler.prepareIn
    cases ho : Assembler.findAssemblyOrder ms with
    | err e =>
      rw [ho] at h1 h2
      cases hx : Assembler.findAssemblyOrderIn it ms <;> rw [hx] at h1 <;> cases h1
      cases hy : Assembler.findAssemblyOrderIn it' ms <;> rw [hy] at h2 <;> cases h2
      exact ⟨rfl, .inl (.err _)⟩
    | ub u =>
      rw [ho] at h1 h2
      cases hx : Assembler.findAssemblyOrderIn it ms <;> rw [hx] at h1 <;> cases h1
      cases hy : Assembler.findAssemblyOrderIn it' ms <;> rw [hy] at h2 <;> cases h2
      exact ⟨rfl, .inl (.ub _)⟩
    | ok o =>
      rw [ho] at h1 h2
      cases hx : Assembler.findAssemblyOrderIn it ms <;> rw [hx] at h1 <;> cases h1
      rename_i p p1 p2
      cases hy : Assembler.findAssemblyOrderIn it' ms <;> rw [hy] at h2 <;> cases h2
      rename_i q q1 q2
      have hI : OrderInv ms o := by
        rcases orderLoop_cases (ms.length + 1) _ (orderInv_init ms) (by simp) with ⟨o', h, hI, -⟩ | h | ⟨h, -⟩
        · rw [Assembler.findAssemblyOrder, h] at ho; cases ho; exact hI
        · rw [Assembler.findAssemblyOrder, h] at ho; cases ho
        · rw [Assembler.findAssemblyOrder, h] at ho; cases ho
      obtain ⟨hperm, -⟩ := C45_order_sound ho
      simp only [Res.bind_ok, p1, q1]
      cases hf : Assembler.firstPasses fuel ms o.order with
      | err e => exact ⟨rfl, .inl (.err e)⟩
      | ub u => exact ⟨rfl, .inl (.ub u)⟩
      | ok ms₁ =>
        simp only [Res.bind_ok]
        have second : ∀ {names names' : HMap FullId Nat}, SameFind names names' → ∀ (order : List Nat) (ms : List Module),
            Assembler.secondPasses names' ms order = Assembler.secondPasses names ms order := by
          intro names names' hn order
          induction order with
          | nil => intro ms; rfl
          | cons i order ih =>
            intro ms
            rw [Assembler.secondPasses, Assembler.secondPasses,
              lookup_alike hn ⟨rfl, fun i x y hx hy => by rw [hx] at hy; cases hy; exact .refl _⟩]
            simp only [ih]
        rw [second p2, second q2]
        cases hs : Assembler.secondPasses o.exported ms₁ o.order with
        | err e => exact ⟨rfl, .inl (.err e)⟩
        | ub u => exact ⟨rfl, .inl (.ub u)⟩
        | ok ms₂ =>
          simp only [Res.bind_ok]
          have hsame : ∀ (i : Nat) (m₂ : Module), ms₂[i]? = some m₂ → ∃ m, ms[i]? = some m ∧ m₂.name = m.name ∧
              m₂.globals = m.globals ∧ m₂.addrNames = [] ∧ ∀ g ∈ m₂.globals, g.2 < m₂.lines.length := by
            intro i m₂ hm₂
            obtain ⟨la, ra⟩ := firstPasses_same hf
            obtain ⟨lb, rb⟩ := secondPasses_same hs
            have hi : i < ms₁.length := by rw [lb]; exact (List.getElem?_eq_some_iff.mp hm₂).1
            have hi0 : i < ms.length := by rw [la]; exact hi
            have e1 := List.getElem?_eq_getElem hi
            have e0 := List.getElem?_eq_getElem hi0
            obtain ⟨l1, t1⟩ := ra i _ _ e0 e1
            obtain ⟨l2, t2⟩ := rb i _ _ e1 hm₂
            obtain ⟨f, hl⟩ := hms _ (List.getElem_mem hi0)
            obtain ⟨items, -, hL, -, -⟩ := loadAsmFile_ok hl
            have hlen : m₂.lines.length = (ms[i]).lines.length := by
              have hn := hperm.symm.nodup List.nodup_range
              obtain ⟨hl1, he1⟩ := firstPasses_each hn hf
              have hun : ∀ i ∈ o.order, ∀ m, ms₁[i]? = some m → Unvalued m := by
                intro i hi m hm
                obtain ⟨m0, hm0, ⟨-, hp⟩ | ⟨hc, -⟩⟩ := he1 i m hm
                · obtain ⟨f, hf⟩ := hms m0 (List.mem_of_getElem? hm0)
                  exact unvalued_first hf hp
                · exact absurd hi hc
              obtain ⟨hmore, -⟩ := secondPasses_each hn hun hs
              have k2 : m₂.lines.length = (ms₁[i]).lines.length := by
                simpa using congrArg List.length (hmore.2 i _ _ e1 hm₂).lines
              obtain ⟨m0, hm0, ⟨-, hp⟩ | ⟨-, hp⟩⟩ := he1 i _ e1
              · rw [e0] at hm0; cases hm0
                rw [k2, firstPass_length hp]
              · rw [e0] at hm0; cases hm0
                rw [k2, hp]
            have hg : m₂.globals = (ms[i]).globals := by rw [t2, t1]
            refine ⟨_, e0, by rw [t2, t1], hg, by rw [t2, t1]; exact hL.fresh.2.1, ?_⟩
            rw [hg, hlen]
            exact loaded_globals_lt hl
          have hpar : Parallel o.order ⟨ms₂, p.exported, .empty⟩ ⟨ms₂, q.exported, .empty⟩ := by
            refine ⟨rfl, fun k => by rw [← p2 k, ← q2 k], ⟨rfl, fun i x y hx hy => by rw [hx] at hy; cases hy; exact .refl _⟩,
              fun _ _ => rfl, fun i m m' hi hm _ => ?_⟩
            obtain ⟨m0, h0, -⟩ := hsame i m hm
            exact absurd (hperm.mem_iff.2 (List.mem_range.2 (List.getElem?_eq_some_iff.mp h0).1)) hi
          obtain ⟨g1, g2⟩ := finalPasses_alike hit hit' sink s (hperm.symm.nodup List.nodup_range) hpar
            (fun i _ m hm => by
              obtain ⟨_, -, -, -, h1, h2⟩ := hsame i m hm
              exact ⟨h1, h2⟩)
          refine ⟨g1, ?_⟩
          rcases hx : Assembler.finalPassesIn it sink ⟨ms₂, p.exported, .empty⟩ o.order s with ⟨sx, rx⟩
          rcases hy : Assembler.finalPassesIn it' sink ⟨ms₂, q.exported, .empty⟩ o.order s with ⟨sy, ry⟩
          rw [hx, hy] at g2
          simp only at g2 ⊢
          cases g2 with
          | err e => exact .inl (.err e)
          | ub u => exact .inl (.ub u)
          | one => exact .inr (.inl ⟨rfl, rfl⟩)
          | other => exact .inr (.inr ⟨rfl, rfl⟩)
          | @ok a b hab =>
            obtain ⟨na, sa⟩ := finalPassesIn_source hx
            have hfor : List.Forall₂ (fun m m' => SameButNames m m' ∧ NamesRight m ∧ NamesRight m') a.modules b.modules := by
              rw [List.forall₂_iff_get]
              refine ⟨hab.modules.1, fun i h1 h2 => ?_⟩
              have e1 := List.getElem?_eq_getElem h1
              have e2 := List.getElem?_eq_getElem h2
              exact ⟨hab.modules.2 i _ _ e1 e2, hab.done i _ _ (by simp) e1 e2⟩
            have hlook := lookup_alike hab.names hab.modules
            -- a name of a module has the value that the module gives it
            have value : ∀ (i : Nat) (m : Module) (n : Str) (t x : Nat), a.modules[i]? = some m → (n, t) ∈ m.globals →
                AddressOf m t x → Assembler.lookup a.modules a.names ⟨some m.name, n⟩ = .ok (x : Int) := by
              intro i m n t x hm hg hx
              have hi : i < ms₂.length := by
                have := (List.getElem?_eq_some_iff.mp hm).1
                rw [← sa.1] at this; exact this
              obtain ⟨c1, c2, c3, -⟩ := sa.2 i _ m (List.getElem?_eq_getElem hi) hm
              obtain ⟨m0, d1, d2, d3, -⟩ := hsame i _ (List.getElem?_eq_getElem hi)
              have hfind : HMap.find a.names ⟨some m.name, n⟩ = some i := by
                rw [na]
                show HMap.find p.exported _ = _
                rw [← p2, hI.names]
                refine ⟨hperm.mem_iff.2 (List.mem_range.2 (List.getElem?_eq_some_iff.mp d1).1), m0, d1, ?_, t, ?_⟩
                · simp [c1, d2]
                · rw [← d3, ← c3]; exact hg
              unfold Assembler.lookup
              rw [hfind]
              simp only [Option.isNone_some, Bool.false_eq_true, if_false, hm]
              unfold Module.valueForName
              rw [if_neg (by simp)]
              have hnodup : NamesNodup m := by
                unfold NamesNodup
                rw [c3, d3]
                exact hnd m0 (List.mem_of_getElem? d1)
              rw [find_of_mem hnodup hg]
              obtain ⟨l, g1, g2, -⟩ := hx
              simp [Module.localLookup, g1, g2]
            have named : ∀ (c : Assembler), (∀ (i : Nat) (m : Module), c.modules[i]? = some m → NamesRight m) →
                (∀ (i : Nat) (m : Module) (n : Str) (t x : Nat), c.modules[i]? = some m → (n, t) ∈ m.globals →
                  AddressOf m t x → Assembler.lookup a.modules a.names ⟨some m.name, n⟩ = .ok (x : Int)) →
                ∀ x n, c.nameForAddress x = some n → Assembler.lookup a.modules a.names n = .ok (x : Int) := by
              intro c hr hv x n hn
              unfold Assembler.nameForAddress at hn
              obtain ⟨m, hm, hq⟩ := List.exists_of_findSome?_eq_some hn
              obtain ⟨i, hi⟩ := List.getElem?_of_mem hm
              unfold Module.nameForAddress at hq
              split at hq
              · cases hq
              · cases hz : HMap.find m.addrNames x with
                | none => rw [hz] at hq; cases hq
                | some w =>
                  rw [hz] at hq
                  cases hq
                  obtain ⟨t, ht, hxx⟩ := (hr i m hi x).2 w hz
                  exact hv i m w t x hi ht hxx
            have hother : ∀ (i : Nat) (m' : Module), b.modules[i]? = some m' → ∃ m, a.modules[i]? = some m ∧ SameButNames m m' := by
              intro i m' hm'
              have hi : i < a.modules.length := by
                rw [hab.modules.1]; exact (List.getElem?_eq_some_iff.mp hm').1
              exact ⟨_, List.getElem?_eq_getElem hi, hab.modules.2 i _ _ (List.getElem?_eq_getElem hi) hm'⟩
            refine .inl (.ok ⟨hab.memory, hlook, ?_, ?_, fun x => (nameForAddress_same hfor x).1, fun x n n' h1 h2 =>
              ⟨(nameForAddress_same hfor x).2 n n' h1 h2, ?_, ?_⟩⟩)
            · unfold Assembler.jumpTargets
              have : Assembler.addTargets b = Assembler.addTargets a := by
                funext ret l
                induction l generalizing ret with
                | nil => rfl
                | cons d l ih =>
                  obtain ⟨d, f⟩ := d
                  have hcon : b.contains d = a.contains d := by simp only [Assembler.contains, hab.memory]
                  rw [Assembler.addTargets, Assembler.addTargets, hcon, ih, ih]
              rw [this]
              exact foldl_same _ (fun r m m' h => by rw [h]) hfor _
            · unfold Assembler.jumpTargetReturnConventions
              exact foldl_same _ (fun r m m' h => by rw [h]) hfor _
            · refine named a (fun i m hm => ?_) value x n h1
              obtain ⟨m', hm'⟩ : ∃ m', b.modules[i]? = some m' := by
                have hi : i < b.modules.length := by
                  rw [← hab.modules.1]; exact (List.getElem?_eq_some_iff.mp hm).1
                exact ⟨_, List.getElem?_eq_getElem hi⟩
              exact (hab.done i m m' (by simp) hm hm').1
            · refine named b (fun i m' hm' => ?_) (fun i m' n t x hm' hg hx => ?_) x n' h2
              · obtain ⟨m, hm, -⟩ := hother i m' hm'
                exact (hab.done i m m' (by simp) hm hm').2
              · obtain ⟨m, hm, hs⟩ := hother i m' hm'
                rw [hs] at hg hx ⊢
                exact value i m n t x hm hg hx

/-- The names in reverse order. -/
def backward : Iteration := ⟨fun _ l => l.reverse, fun _ l => l.reverse⟩

theorem isOrder_backward : IsOrder backward := fun _ l => ⟨l.reverse_perm, l.reverse_perm⟩

/-- The outcome with a sink that takes everything. -/
def outcomeIn (it : Iteration) (files : List (List Str)) : Res Assembler :=
  (Assembler.assembleFilesIn it 100 files (fun (_ : Unit) _ _ => ((), .ok ())) ()).2

/-- Not so: a file with a label that has no address and a constant that is negative is either reported or crashes. -/
theorem C81_violated :
    (match outcomeIn inserted [[cs!"here { ", cs!"}", cs!"less .equ -1"]] with | .err e => some e | _ => none) = some .noValue ∧
      (match outcomeIn backward [[cs!"here { ", cs!"}", cs!"less .equ -1"]] with | .ub u => some u | _ => none) =
        some .assertFail := by
  decide +kernel

/-- Not so: of two names for an address, either may be given. -/
theorem C81_violated_name :
    (match outcomeIn inserted [[cs!" .module lib", cs!" .org $8000", cs!"one", cs!"two .db 1"]] with
      | .ok a => a.nameForAddress 0x8000 | _ => none) = some ⟨some cs!"lib", cs!"one"⟩ ∧
    (match outcomeIn backward [[cs!" .module lib", cs!" .org $8000", cs!"one", cs!"two .db 1"]] with
      | .ok a => a.nameForAddress 0x8000 | _ => none) = some ⟨some cs!"lib", cs!"two"⟩ := by
  decide +kernel

-- two files with several names each, in two orders
example : ∃ a b, outcomeIn inserted [[cs!" .module lib", cs!" .org $8000", cs!"one", cs!"two .db 1", cs!"three .equ one+1"],
      [cs!"far .equ lib::three", cs!" .org $9000", cs!"near .dw far, near"]] = .ok a ∧
    outcomeIn backward [[cs!" .module lib", cs!" .org $8000", cs!"one", cs!"two .db 1", cs!"three .equ one+1"],
      [cs!"far .equ lib::three", cs!" .org $9000", cs!"near .dw far, near"]] = .ok b ∧ SameAnswers a b := by
  have h := (C81_any_order_partial isOrder_inserted isOrder_backward 100
    [[cs!" .module lib", cs!" .org $8000", cs!"one", cs!"two .db 1", cs!"three .equ one+1"],
      [cs!"far .equ lib::three", cs!" .org $9000", cs!"near .dw far, near"]] (fun (_ : Unit) _ _ => ((), .ok ())) ()).2
  have h1 : (match outcomeIn inserted [[cs!" .module lib", cs!" .org $8000", cs!"one", cs!"two .db 1", cs!"three .equ one+1"],
      [cs!"far .equ lib::three", cs!" .org $9000", cs!"near .dw far, near"]] with | .ok _ => true | _ => false) = true := by
    decide +kernel
  unfold outcomeIn at h1 ⊢
  rcases h with h | ⟨h, -⟩ | ⟨h, -⟩
  · revert h h1
    cases Assembler.assembleFilesIn inserted 100 _ _ _ |>.2 <;> cases Assembler.assembleFilesIn backward 100 _ _ _ |>.2 <;>
      intro h1 h <;> cases h <;> first | exact ⟨_, _, rfl, rfl, by assumption⟩ | cases h1
  · rw [h] at h1; cases h1
  · rw [h] at h1; cases h1

end Nsasm.Props
