import Verif.Props.Misc
import Verif.Props.Preferences
import Verif.Props.Scores
import Verif.Props.Rules
import Verif.Props.Optimal
import Verif.Props.Separable
import Verif.Props.SeqThiele
import Verif.Props.BranchAndBound
import Verif.Props.RevSeqThiele
import Verif.Props.Checkers
import Verif.Props.Axioms
import Verif.Props.Phragmen
import Verif.Props.Budgets
import Verif.Props.EqualSharesAxioms
import Verif.Props.Monroe
import Verif.Props.GreedyMonroe
import Verif.Model.Other
import Verif.Spec.Other
import Verif.Props.Other
import Verif.Props.Monotonicity
import Verif.Spec.Electorate
import Verif.Lemmas.Electorate
import Verif.Props.Electorate
import Verif.Props.ElectorateShares
import Verif.Props.Anonymity
import Verif.Model.ILP
import Verif.Spec.ILP
import Verif.Lemmas.ILP
import Verif.Props.Enumeration
import Verif.Props.ILPThiele
import Verif.Props.ILPMinimaxav
import Verif.Props.ILPMonroe
import Verif.Lemmas.Lex
import Verif.Props.ILPLexcc
import Verif.Props.ILPLexminimaxav
import Verif.Lemmas.Hall
import Verif.Model.ILPPhragmen
import Verif.Spec.Loads
import Verif.Props.Loads
import Verif.Props.ILPPhragmen
import Verif.Props.MaximinSupport
import Verif.Lemmas.Optimum
import Verif.Model.CheckILP
import Verif.Spec.Prices
import Verif.Props.CheckILP
import Verif.Props.Priceability
import Verif.Props.Check
import Verif.Props.Leximax
import Verif.Model.Dispatch
import Verif.Spec.Dispatch
import Verif.Props.Dispatch
import Verif.Model.FileIO
import Verif.Spec.FileIO
import Verif.Model.Output
import Verif.Props.Yaml
import Verif.Props.Preflib
import Verif.Props.Output
import Verif.Model.Generate
import Verif.Spec.Generate
import Verif.Props.Generate
import Verif.Model.Float
import Verif.Model.PyNum
import Verif.Spec.Float
import Verif.Lemmas.Rnd
import Verif.Lemmas.PyNum
import Verif.Lemmas.CompletionLoop
import Verif.Props.FloatSeq
import Verif.Props.FloatShares
import Verif.Props.FloatEph
import Verif.Props.Float
import Verif.Lemmas.Near
import Verif.Props.FloatAccuracy
import Verif.Props.FloatAccuracyEph
import Verif.Spec.Promises
import Verif.Props.Hierarchy
import Verif.Props.PriceableRules
import Verif.Props.MoreAxioms
import Verif.Props.ParetoRules
import Verif.Props.Dominance
import Verif.Props.Ballots
import Verif.Props.LeximaxJustified
import Verif.Props.LeximaxPriceable
import Verif.Props.MaximinPriceable
import Verif.Props.ComputeCheck
import Verif.Spec.Renaming
import Verif.Lemmas.Renaming
import Verif.Lemmas.RenamingShares
import Verif.Props.Neutrality
import Verif.Props.NeutralityCheck
import Verif.Spec.Failures
import Verif.Lemmas.Failures
import Verif.Props.Failures
import Verif.Model.Keywords
import Verif.Props.Keywords
import Verif.Spec.Tolerance
import Verif.Lemmas.Tolerance
import Verif.Props.Tolerance
import Verif.Model.Text
import Verif.Spec.Text
import Verif.Lemmas.Text
import Verif.Props.Text
import Verif.Model.Report
import Verif.Spec.Report
import Verif.Lemmas.Report
import Verif.Props.Report
import Verif.Props.ReportSeparable
import Verif.Model.ReportPhragmen
import Verif.Spec.ReportPhragmen
import Verif.Lemmas.ReportPhragmen
import Verif.Props.ReportPhragmen
import Verif.Model.ReportShares
import Verif.Spec.ReportShares
import Verif.Lemmas.ReportShares
import Verif.Props.ReportShares
import Verif.Model.ReportMonroe
import Verif.Spec.ReportMonroe
import Verif.Lemmas.ReportMonroe
import Verif.Props.ReportMonroe
import Verif.Model.ReportOptimal
import Verif.Spec.ReportOptimal
import Verif.Lemmas.ReportOptimal
import Verif.Props.ReportOptimal
import Verif.Model.ReportMaximin
import Verif.Spec.ReportMaximin
import Verif.Props.ReportMaximin
import Verif.Model.ReportDispatch
import Verif.Spec.ReportDispatch
import Verif.Lemmas.ReportDispatch
import Verif.Props.ReportDispatch
import Verif.Model.ReportCheck
import Verif.Spec.ReportCheck
import Verif.Lemmas.ReportCheck
import Verif.Props.ReportCheck
import Verif.Spec.FloatSigned
import Verif.Lemmas.Signed
import Verif.Props.FloatAccuracyShares
import Verif.Props.FloatAccuracyMes
import Verif.Props.FloatAccuracySep
import Verif.Props.FloatAccuracyRule
import Verif.Props.FloatAccuracyPhase
import Verif.Props.FloatAccuracyEqualShares
import Verif.Props.FloatAccuracyBudgets
import Verif.Model.Heap
import Verif.Spec.Heap
import Verif.Lemmas.Heap
import Verif.Props.Heap
import Verif.Model.FloatSav
import Verif.Props.FloatSav
import Verif.Spec.Apportionment
import Verif.Props.Apportionment
import Verif.Props.ApportionmentLoads
import Verif.Props.ApportionmentMonroe
import Verif.Spec.Changes
import Verif.Spec.Dominance
import Verif.Spec.Ballots
import Verif.Props.Consistency
import Verif.Props.CandidateMonotonicity
import Verif.Props.MonotoneRounds
import Verif.Spec.Supporters
import Verif.Props.Supporters
import Verif.Model.FloatQuota
import Verif.Spec.FloatQuota
import Verif.Props.FloatQuota
import Verif.Spec.TieBreaking
import Verif.Props.TieBreaking
import Verif.Spec.Sincerity
import Verif.Props.Sincerity
import Verif.Spec.Unanimity
import Verif.Props.Unanimity
import Verif.Spec.Guarantees
import Verif.Props.Guarantees
import Verif.Spec.SingleSeat
import Verif.Props.SingleSeat
import Verif.Spec.Dummies
import Verif.Props.Dummies
import Verif.Props.CheckElectorate
import Verif.Spec.LosingCandidate
import Verif.Props.LosingCandidate
import Verif.Spec.Resolute
import Verif.Props.Resolute
import Verif.Props.ResoluteElectorate
import Verif.Props.ResoluteSupporters
import Verif.Props.ResoluteDummies
import Verif.Props.Indifferent
import Verif.Props.Relations
import Verif.Props.CheckDummies
import Verif.Props.PJRplus
import Verif.Props.PhragmenDegree
import Verif.Props.Welfare
import Verif.Spec.Droop
import Verif.Props.Droop
import Verif.Spec.Participation
import Verif.Props.Participation
import Verif.Props.MaximinApprox
import Verif.Spec.Ranking
import Verif.Props.Ranking
import Verif.Spec.Symmetry
import Verif.Props.Symmetry
import Verif.Spec.Parts
import Verif.Props.Parts
import Verif.Props.Parties
import Verif.Props.Names
import Verif.Props.LeavesResolute
import Verif.Props.CandidateLeaves
