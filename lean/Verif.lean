import Verif.Common
import Verif.RefsModel
import Verif.RefsSpec
import Verif.RefsLemmas
import Verif.RefsProps
import Verif.PathsModel
import Verif.PathsSpec
import Verif.PathsProps
import Verif.SubsumeProps
import Verif.ParamsModel
import Verif.ParamsSpec
import Verif.ParamsProps
import Verif.Assoc
import Verif.ResponsesModel
import Verif.ResponsesSpec
import Verif.ResponsesProps
import Verif.ResponsesDoc
import Verif.SecurityModel
import Verif.SecuritySpec
import Verif.SecurityProps
import Verif.SecurityDoc
import Verif.ConfigModel
import Verif.ConfigSpec
import Verif.ConfigProps
import Verif.SccModel
import Verif.SccSpec
import Verif.SccInv
import Verif.SccProps
import Verif.ReachModel
import Verif.ReachSpec
import Verif.ReachProps
import Verif.MiddlewareModel
import Verif.MiddlewareSpec
import Verif.MiddlewareProps
import Verif.LazyModel
import Verif.LazySpec
import Verif.LazyInv
import Verif.LazyBudget
import Verif.LazyProps
import Verif.TypeModel
import Verif.TypeSpec
import Verif.TypeInv
import Verif.TypeProps
import Verif.TypeCanon
import Verif.RegexModel
import Verif.GitignoreModel
import Verif.GitignoreSpec
import Verif.GitignoreProps
import Verif.FiltersModel
import Verif.FiltersProps
import Verif.MethodsModel
import Verif.MethodsSpec
import Verif.MethodsProps
import Verif.MethodsInfer
import Verif.IdsModel
import Verif.IdsProps
import Verif.CallsModel
import Verif.CallsSpec
import Verif.CallsProps
import Verif.LitModel
import Verif.LitProps
import Verif.IndexModel
import Verif.IndexProps
import Verif.ConcModel
import Verif.ConcProps
import Verif.TagsModel
import Verif.TagsProps
import Verif.ValidateModel
import Verif.ValidateProps
import Verif.EnumModel
import Verif.EnumProps
import Verif.NamesModel
import Verif.NamesProps
import Verif.ScopeModel
import Verif.ScopeProps
import Verif.MappingModel
import Verif.MappingProps
import Verif.GenericsModel
import Verif.GenericsProps
import Verif.UiModel
import Verif.UiProps
import Verif.DiagramModel
import Verif.DiagramDepthProps
import Verif.DiagramProps
import Verif.DiagramServerProps
import Verif.InsightModel
import Verif.InsightWalkProps
import Verif.InsightPathProps
import Verif.InsightGraphProps
import Verif.SchemaGenModel
import Verif.SchemaTermProps
import Verif.SchemaRefProps
import Verif.SchemaFitProps
import Verif.SchemaCollectModel
import Verif.SchemaDocProps
import Verif.SchemaShapeProps
import Verif.HandlerDocModel
import Verif.HandlerDocProps
import Verif.HandlerLookupProps
import Verif.ProvenanceModel
import Verif.BodySourceProps
import Verif.ResponseDestProps
import Verif.ParamTraceProps
import Verif.JsonValueProps
import Verif.EmbedModel
import Verif.EmbedProps
import Verif.AnonStructModel
import Verif.AnonStructProps
import Verif.WriteSinkModel
import Verif.WriteSinkProps
import Verif.MapLiteralModel
import Verif.MapLiteralProps
import Verif.EnvelopeModel
import Verif.EnvelopeProps
import Verif.HeaderSideModel
import Verif.HeaderSideProps
import Verif.StatusModel
import Verif.StatusProps
import Verif.WrapperModel
import Verif.WrapperParamProps
import Verif.WrapperRouteProps
import Verif.WrapperValueProps
import Verif.WrapperApplyProps
import Verif.FuncFieldModel
import Verif.FuncFieldProps
import Verif.FuncFieldIndexProps
import Verif.RouteWalkModel
import Verif.RouteWalkProps
import Verif.RouteCompleteProps
import Verif.WrapperFoundProps
import Verif.SourceModel
import Verif.SourceProps
import Verif.SaveModel
import Verif.SaveProps
import Verif.CliModel
import Verif.CliProps
import Verif.ImplModel
import Verif.ImplProps
import Verif.ExtImplModel
import Verif.ExtImplProps
import Verif.ParamNameModel
import Verif.ParamNameProps
import Verif.PathVarModel
import Verif.PathVarProps
import Verif.MwIdentModel
import Verif.MwIdentProps
import Verif.PresetModel
import Verif.PresetProps
import Verif.EntryPresetProps
import Verif.RouteExtractModel
import Verif.RouteExtractProps
import Verif.UnwrapModel
import Verif.UnwrapProps
import Verif.BodyTypeModel
import Verif.BodyTypeProps
import Verif.FwDepsModel
import Verif.FwDepsProps
import Verif.OverviewModel
import Verif.OverviewProps
import Verif.HeadModel
import Verif.HeadProps
import Verif.SecCheckModel
import Verif.SecCheckProps
import Verif.GateModel
import Verif.GateProps
import Verif.PkgTreeModel
import Verif.PkgTreeProps
import Verif.CtorModel
import Verif.CtorProps
import Verif.NearModel
import Verif.NearProps
import Verif.EffectiveModel
import Verif.EffectiveProps
import Verif.HandlerValueModel
import Verif.HandlerValueProps
import Verif.FieldLookupModel
import Verif.FieldLookupProps
import Verif.OperandModel
import Verif.OperandProps
import Verif.TraceRootModel
import Verif.TraceRootProps
import Verif.CallBodyModel
import Verif.CallBodyProps
import Verif.BrowseModel
import Verif.BrowseProps
import Verif.SubtreeModel
import Verif.SubtreeProps
import Verif.EndpointModel
import Verif.EndpointProps
import Verif.OriginModel
import Verif.OriginProps
import Verif.LinkModel
import Verif.LinkProps
import Verif.SuggestModel
import Verif.SuggestProps
import Verif.ExportModel
import Verif.ExportProps
import Verif.VerbsModel
import Verif.VerbsProps
import Verif.FuncMapModel
import Verif.FuncMapProps
import Verif.EndExportModel
import Verif.EndExportProps
import Verif.BehindModel
import Verif.BehindProps
import Verif.PosModel
import Verif.PosProps
import Verif.ImplsModel
import Verif.ImplsProps
import Verif.PickConfModel
import Verif.PickConfProps
import Verif.VersionModel
import Verif.VersionProps
import Verif.FnFileModel
import Verif.FnFileProps
