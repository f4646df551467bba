import Verif.Model.Report

/-!
# The names of the rules that are printed
-/

namespace Abc.Spec

/-- The rule ids and their names. -/
def ruleNames : List (String × String) :=
  [("av", "Approval Voting (AV)"), ("sav", "Satisfaction Approval Voting (SAV)"), ("pav", "Proportional Approval Voting (PAV)"),
   ("slav", "Sainte-Laguë Approval Voting (SLAV)"), ("cc", "Approval Chamberlin-Courant (CC)"),
   ("lexcc", "Lexicographic Chamberlin-Courant (lex-CC)"),
   ("seqpav", "Sequential Proportional Approval Voting (seq-PAV)"),
   ("revseqpav", "Reverse Sequential Proportional Approval Voting (revseq-PAV)"),
   ("seqslav", "Sequential Sainte-Laguë Approval Voting (seq-SLAV)"), ("seqcc", "Sequential Approval Chamberlin-Courant (seq-CC)"),
   ("seqphragmen", "Phragmén's Sequential Rule (seq-Phragmén)"),
   ("minimaxphragmen", "Phragmén's Minimax Rule (minimax-Phragmén)"),
   ("leximaxphragmen", "Phragmén's Leximax Rule (leximax-Phragmén)"), ("maximin-support", "Maximin Support Method (MMS)"),
   ("monroe", "Monroe's Approval Rule (Monroe)"), ("greedy-monroe", "Greedy Monroe"), ("minimaxav", "Minimax Approval Voting (MAV)"),
   ("lexminimaxav", "Lexicographic Minimax Approval Voting (lex-MAV)"),
   ("equal-shares", "Method of Equal Shares (aka Rule X) with Phragmén phase"),
   ("equal-shares-with-av-completion", "Method of Equal Shares (aka Rule X) with AV completion"),
   ("equal-shares-with-increment-completion", "Method of Equal Shares (aka Rule X) with increment completion"),
   ("equal-shares-without-completion", "Method of Equal Shares (aka Rule X) without completion (second phase)"),
   ("phragmen-enestroem", "Method of Phragmén-Eneström"), ("consensus-rule", "Consensus Rule"), ("trivial", "Trivial Rule"),
   ("rsd", "Random Serial Dictator"), ("eph", "E Pluribus Hugo (EPH)"),
   ("seqav", "Sequential Approval Voting (AV)"), ("revseqav", "Reverse Sequential Approval Voting (AV)"),
   ("revseqslav", "Reverse Sequential Sainte-Laguë Approval Voting (SLAV)"),
   ("revseqcc", "Reverse Sequential Approval Chamberlin-Courant (CC)")]

end Abc.Spec
