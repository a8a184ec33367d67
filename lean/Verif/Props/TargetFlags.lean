import Verif.Lemmas.FileOrder

/-! # C47: the flags reported for a jump target -/

namespace Nsasm.Props
open Nsasm Nsasm.Spec

/-- **A flag that is known in the same way at every line that goes to a target is reported so.**  The flags at these lines
are all obtainable, and so are the reported ones, which say no less than they can: a flag is left open only if the lines
differ about it or one of them does not know it. -/
theorem C47_flags {σ : Type} {fuel : Nat} {files : List (List Str)} {sink : Sink σ} {s s' : σ} {a : Assembler}
    (h : Assembler.assembleFiles fuel files sink s = (s', .ok a)) :
    ∃ externs : Ctx, Publishes a.modules externs ∧
      (∀ x g, Transfer files a externs x g → Normal g) ∧
      ∀ x f, OMap.find a.jumpTargets x = some f → Normal f ∧
        ∀ flag ∈ [StatusFlags.e, StatusFlags.m, StatusFlags.x, StatusFlags.c], ∀ v ∈ [BitState.on, BitState.off],
          (∀ g, Transfer files a externs x g → flag g = v) → flag f = v := by
  obtain ⟨order, wss, hA⟩ := assembled h
  have hn : ∀ x g, Transfer files a (Assembler.lookup a.modules a.names) x g → Normal g := by
    rintro x g ⟨i, k, file, items, m, l, ctx, -, -, hm, hl, -, ht⟩
    obtain ⟨f, m₀, m₁, m₂, externs, -, h0, h1, h2, hs, -⟩ := hA.passes i m hm
    have hneat := neat_second h0 h1 h2 l (by rw [← hs.2.1]; exact List.mem_of_getElem? hl)
    cases ht with
    | long e1 _ _ _ => exact hneat.1 _ e1
    | near e1 _ _ _ _ => exact hneat.1 _ e1
    | remote e1 e2 _ => exact hneat.2 _ e1 e2
  refine ⟨_, assembled_publishes hA, hn, fun x f hf => ?_⟩
  obtain ⟨n, b⟩ := (reports_transfers hA).bits x f hf fun g hg => hn x g hg.2
  refine ⟨n, fun flag hflag v hv hall => b flag ?_ v (by simpa using hv) fun g hg => hall g hg.2⟩
  simpa [IsFlag] using hflag

/-- Two calls of one routine that agree about a flag and differ in another. -/
example : ∃ (ws : Writes) (a : Assembler) (f : StatusFlags), Assembler.assembleFiles 30
      [[cs!" .org $8000", cs!" .entry m8x8", cs!" jsl $c12345", cs!" rep #$20", cs!" jsl $c12345", cs!" rts"]]
      recorder [] = (ws, .ok a) ∧ OMap.find a.jumpTargets 0xc12345 = some f ∧ f.x = .on ∧ f.m = .unknown := by
  obtain ⟨ws, a, h, hc⟩ := assembles_of_check (fuel := 30) (files :=
      [[cs!" .org $8000", cs!" .entry m8x8", cs!" jsl $c12345", cs!" rep #$20", cs!" jsl $c12345", cs!" rts"]])
    (fun _ a => OMap.find a.jumpTargets 0xc12345 == some ⟨.off, .unknown, .on, .unknown⟩) (by decide +kernel)
  exact ⟨ws, a, _, h, by simpa using hc, rfl, rfl⟩

end Nsasm.Props
